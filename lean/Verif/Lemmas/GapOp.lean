import Verif.Lemmas.LayerLaw

set_option linter.unusedSectionVars false

/-! # Integrals over the values in the gaps of a path, gap by gap -/

namespace Ctb

open MeasureTheory Set
open scoped ENNReal

theorem MeasL.uncons {X : Type} [MeasurableSpace X] {n : ℕ} {F : X → List ℝ → ℝ≥0∞} (h : MeasL n fun (p : X × ℝ) l => F p.1 (p.2 :: l)) : MeasL (n + 1) F := by
  unfold MeasL at *
  have : (fun p : X × (Fin (n + 1) → ℝ) => F p.1 (List.ofFn p.2)) =
      (fun q : (X × ℝ) × (Fin n → ℝ) => F q.1.1 (q.1.2 :: List.ofFn q.2)) ∘ fun p : X × (Fin (n + 1) → ℝ) => ((p.1, p.2 0), fun i => p.2 i.succ) := by
    ext p
    simp [List.ofFn_succ]
  rw [this]
  exact h.comp (by fun_prop)

/-- Operators that integrate over the new values in the gap from time `s` to time `t`, given the values at its ends. -/
abbrev GapOp := ℝ → ℝ → ℝ → ℝ → (List ℝ → ℝ≥0∞) → ℝ≥0∞

/-- All gaps after time `s`. -/
def foldOp (O : GapOp) : ℝ → ℝ → List (ℝ × ℝ) → (List ℝ → ℝ≥0∞) → ℝ≥0∞
  | _, _, [], F => F []
  | s, x, (t, y) :: l, F => O s t x y fun zs => foldOp O t y l fun ws => F (zs ++ y :: ws)

/-- The number of values after time `s`. -/
def foldLen (N : ℝ → ℝ → ℕ) : ℝ → List ℝ → ℕ
  | _, [] => 0
  | s, t :: ts => N s t + (foldLen N t ts + 1)

/-- Operators on functions of `N s t` values. -/
structure GapLin (N : ℝ → ℝ → ℕ) (O : GapOp) : Prop where
  meas : ∀ (s t : ℝ) {X : Type} [MeasurableSpace X] {F : X → List ℝ → ℝ≥0∞} {x y : X → ℝ}, MeasL (N s t) F → Measurable x → Measurable y → Measurable fun p => O s t (x p) (y p) (F p)
  mono : ∀ (s t x y : ℝ) {F G : List ℝ → ℝ≥0∞}, (∀ l, l.length = N s t → F l ≤ G l) → O s t x y F ≤ O s t x y G

variable {N : ℝ → ℝ → ℕ} {O : GapOp}

theorem GapLin.congr (h : GapLin N O) (s t x y : ℝ) {F G : List ℝ → ℝ≥0∞} (e : ∀ l, l.length = N s t → F l = G l) : O s t x y F = O s t x y G :=
  le_antisymm (h.mono s t x y fun l hl => (e l hl).le) (h.mono s t x y fun l hl => (e l hl).ge)

theorem MeasL.split {X : Type} [MeasurableSpace X] {n k : ℕ} {F : X → List ℝ → ℝ≥0∞} (h : MeasL (n + (k + 1)) F) :
    MeasL k fun (p : (X × ℝ) × (Fin n → ℝ)) ws => F p.1.1 (List.ofFn p.2 ++ p.1.2 :: ws) :=
  (MeasL.cons (MeasL.append h)).comp (φ := fun p : (X × ℝ) × (Fin n → ℝ) => ((p.1.1, p.2), p.1.2)) (by fun_prop)

theorem foldOp_mono (h : GapLin N O) : ∀ (l : List (ℝ × ℝ)) (s x : ℝ) {F G : List ℝ → ℝ≥0∞}, (∀ ws, ws.length = foldLen N s (l.map Prod.fst) → F ws ≤ G ws) →
    foldOp O s x l F ≤ foldOp O s x l G
  | [], _, _, F, G, e => e [] rfl
  | (t, y) :: l, s, x, F, G, e => h.mono s t x y fun zs hz => foldOp_mono h l t y fun ws hw => e _ (by simp [foldLen, hz, hw])

theorem foldOp_congr (h : GapLin N O) (l : List (ℝ × ℝ)) (s x : ℝ) {F G : List ℝ → ℝ≥0∞} (e : ∀ ws, ws.length = foldLen N s (l.map Prod.fst) → F ws = G ws) :
    foldOp O s x l F = foldOp O s x l G :=
  le_antisymm (foldOp_mono h l s x fun ws hw => (e ws hw).le) (foldOp_mono h l s x fun ws hw => (e ws hw).ge)

/-- The integral is measurable in the known values and in parameters. -/
theorem foldOp_measurable (h : GapLin N O) : ∀ (ts : List ℝ) (s : ℝ) {X : Type} [MeasurableSpace X] {F : X → List ℝ → ℝ≥0∞} {x : X → ℝ},
    MeasL (foldLen N s ts) F → Measurable x → MeasL ts.length fun p ys => foldOp O s (x p) (ts.zip ys) (F p)
  | [], s, X, _, F, x, hF, _ => by
    simp only [List.zip_nil_left, foldOp]
    exact (MeasL.zero_apply hF).comp measurable_fst
  | t :: ts, s, X, _, F, x, hF, hx => by
    refine MeasL.uncons ?_
    simp only [List.zip_cons_cons, foldOp]
    have ih := foldOp_measurable h ts t (X := (X × ℝ) × (Fin (N s t) → ℝ)) (F := fun p ws => F p.1.1 (List.ofFn p.2 ++ p.1.2 :: ws)) (x := fun p => p.1.2)
      (MeasL.split hF) (by fun_prop)
    have hm : MeasL (N s t) fun (p : (X × ℝ) × (Fin ts.length → ℝ)) zs => foldOp O t p.1.2 (ts.zip (List.ofFn p.2)) fun ws => F p.1.1 (zs ++ p.1.2 :: ws) :=
      Measurable.comp ih (by fun_prop : Measurable fun p : ((X × ℝ) × (Fin ts.length → ℝ)) × (Fin (N s t) → ℝ) => (((p.1.1, p.2), p.1.2) : ((X × ℝ) × (Fin (N s t) → ℝ)) × (Fin ts.length → ℝ)))
    exact h.meas s t hm (hx.comp (measurable_fst.comp measurable_fst)) (measurable_snd.comp measurable_fst)

theorem foldOp_measurable' (h : GapLin N O) (l : List (ℝ × ℝ)) (s x : ℝ) {X : Type} [MeasurableSpace X] {F : X → List ℝ → ℝ≥0∞} (hF : MeasL (foldLen N s (l.map Prod.fst)) F) :
    Measurable fun p => foldOp O s x l (F p) := by
  have h1 := foldOp_measurable h (l.map Prod.fst) s (x := fun _ => x) hF measurable_const
  have h2 := Measurable.comp h1 (by fun_prop : Measurable fun p : X => (p, fun i : Fin (l.map Prod.fst).length => (l.map Prod.snd)[i]'(by simpa using i.2)))
  refine (funext fun p => ?_ : (fun p => foldOp O s x l (F p)) = _) ▸ h2
  simp only [Function.comp]
  congr 1
  refine List.ext_getElem (by simp) fun i h1 h2 => ?_
  simp

/-- Operators `O n` that increase to `L`, where `L` passes to monotone limits of the function. -/
structure GapLim (N : ℝ → ℝ → ℕ) (O : ℕ → GapOp) (L : GapOp) : Prop where
  lin : ∀ n, GapLin N (O n)
  lim : GapLin N L
  mono : ∀ s t x y {F : List ℝ → ℝ≥0∞}, MeasL (N s t) (fun _ : Unit => F) → Monotone fun n => O n s t x y F
  sup : ∀ s t x y {F : List ℝ → ℝ≥0∞}, MeasL (N s t) (fun _ : Unit => F) → ⨆ n, O n s t x y F = L s t x y F
  cont : ∀ s t x y {F : ℕ → List ℝ → ℝ≥0∞}, (∀ n, MeasL (N s t) fun _ : Unit => F n) → (∀ l, Monotone fun n => F n l) → L s t x y (fun l => ⨆ n, F n l) = ⨆ n, L s t x y (F n)

variable {O : ℕ → GapOp} {L : GapOp}

theorem GapLim.step (h : GapLim N O L) (s t x y : ℝ) {F : ℕ → List ℝ → ℝ≥0∞} (hF : ∀ n, MeasL (N s t) fun _ : Unit => F n) (hm : ∀ l, l.length = N s t → Monotone fun n => F n l) :
    (Monotone fun n => O n s t x y (F n)) ∧ ⨆ n, O n s t x y (F n) = L s t x y fun l => ⨆ n, F n l := by
  have hmono : Monotone fun n => O n s t x y (F n) := fun i j hij =>
    ((h.lin i).mono s t x y fun l hl => hm l hl hij).trans (h.mono s t x y (hF j) hij)
  refine ⟨hmono, le_antisymm (iSup_le fun n => ?_) ?_⟩
  · have h1 : O n s t x y (F n) ≤ L s t x y (F n) := by
      rw [← h.sup s t x y (hF n)]
      exact le_iSup (fun i => O i s t x y (F n)) n
    exact h1.trans (h.lim.mono s t x y fun l _ => le_iSup (fun i => F i l) n)
  · classical
    set G : ℕ → List ℝ → ℝ≥0∞ := fun n l => if l.length = N s t then F n l else 0 with hG
    have hGF : ∀ n l, l.length = N s t → G n l = F n l := fun n l hl => if_pos hl
    have hGm : ∀ n, MeasL (N s t) fun _ : Unit => G n := by
      intro n
      have := hF n
      unfold MeasL at this ⊢
      simpa [hG] using this
    have hGmono : ∀ l, Monotone fun n => G n l := by
      intro l i j hij
      simp only [hG]
      split_ifs with hl
      · exact hm l hl hij
      · exact le_rfl
    rw [h.lim.congr s t x y (G := fun l => ⨆ n, G n l) fun l hl => iSup_congr fun n => (hGF n l hl).symm, h.cont s t x y hGm hGmono]
    refine iSup_le fun j => ?_
    rw [← h.sup s t x y (hGm j)]
    refine iSup_le fun i => ?_
    refine ((h.mono s t x y (hGm j)) (le_max_left i j)).trans ?_
    refine ((h.lin _).mono s t x y fun l hl => ?_).trans (le_iSup (fun n => O n s t x y (F n)) (max i j))
    rw [hGF _ _ hl]
    exact hm l hl (le_max_right i j)

theorem GapLim.fold (h : GapLim N O L) : ∀ (l : List (ℝ × ℝ)) (s x : ℝ) {F : ℕ → List ℝ → ℝ≥0∞}, (∀ n, MeasL (foldLen N s (l.map Prod.fst)) fun _ : Unit => F n) →
    (∀ ws, ws.length = foldLen N s (l.map Prod.fst) → Monotone fun n => F n ws) →
    (Monotone fun n => foldOp (O n) s x l (F n)) ∧ ⨆ n, foldOp (O n) s x l (F n) = foldOp L s x l fun ws => ⨆ n, F n ws
  | [], _, _, F, _, hm => ⟨hm [] rfl, rfl⟩
  | (t, y) :: l, s, x, F, hF, hm => by
    have hs : ∀ n, MeasL (foldLen N t (l.map Prod.fst)) fun (p : Unit × (Fin (N s t) → ℝ)) ws => F n (List.ofFn p.2 ++ y :: ws) := fun n =>
      (MeasL.split (hF n)).comp (φ := fun p : Unit × (Fin (N s t) → ℝ) => ((p.1, y), p.2)) (by fun_prop)
    have hin : ∀ zs : List ℝ, zs.length = N s t → ∀ n, MeasL (foldLen N t (l.map Prod.fst)) fun _ : Unit => fun ws => F n (zs ++ y :: ws) := by
      intro zs hz n
      have := (hs n).comp (φ := fun _ : Unit => ((), fun i : Fin (N s t) => zs[i]'(by omega))) measurable_const
      refine (?_ : zs = List.ofFn fun i : Fin (N s t) => zs[i]'(by omega)) ▸ this
      refine List.ext_getElem (by simpa using hz) fun i h1 h2 => by simp
    have hmi : ∀ zs : List ℝ, zs.length = N s t → ∀ ws, ws.length = foldLen N t (l.map Prod.fst) → Monotone fun n => F n (zs ++ y :: ws) :=
      fun zs hz ws hw => hm _ (by simp [foldLen, hz, hw])
    have ih := fun zs hz => GapLim.fold h l t y (F := fun n ws => F n (zs ++ y :: ws)) (hin zs hz) (hmi zs hz)
    obtain ⟨h1, h2⟩ := h.step s t x y (F := fun n zs => foldOp (O n) t y l fun ws => F n (zs ++ y :: ws))
      (fun n => foldOp_measurable' (h.lin n) l t y (hs n)) fun zs hz => (ih zs hz).1
    refine ⟨h1, ?_⟩
    simp only [foldOp]
    rw [h2]
    exact h.lim.congr s t x y fun zs hz => (ih zs hz).2

end Ctb
