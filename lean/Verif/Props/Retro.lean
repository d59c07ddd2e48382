import Verif.Lemmas.FillProg
import Verif.Lemmas.RawFillLim

set_option linter.unusedSectionVars false

/-! # C113: skeletons filled in once or in several rounds -/

namespace Ctb

open Classical MeasureTheory Set Filter Topology
open scoped ENNReal

variable {s : EaSkel} {A B C newT : List ℝ} {n k : ℕ} {x0 : ℝ}

theorem EaSkel.Free.split (h : s.Free) (hx : s.x.head? = some x0) : ∃ ts xs, s.t = 0 :: ts ∧ s.x = x0 :: xs ∧ xs.length = ts.length ∧ s.points = known (ts.zip xs) ∧
    (ts.zip xs).map Prod.fst = ts ∧ GoodChain s.bound s.tight x0 (ts.zip xs) := by
  obtain ⟨⟨hs, h0, hl, hfl⟩, hit, hfree, hin, hap⟩ := h
  rcases ht : s.t with _ | ⟨t0, ts⟩
  · simp [ht] at h0
  rcases hx' : s.x with _ | ⟨y0, xs⟩
  · simp [hx'] at hx
  rw [ht] at h0 hl
  rw [hx'] at hx hl hin hap
  simp only [List.head?_cons, Option.some.injEq] at h0 hx
  subst h0 hx
  have hl' : xs.length = ts.length := by simpa using hl
  refine ⟨ts, xs, rfl, rfl, hl', ?_, List.map_fst_zip hl'.ge, ?_⟩
  · simp [EaSkel.points, ht, hx', known, List.zip_map_right]
  · clear hx' hl ht
    generalize s.bound = V at *
    generalize s.tight = m at *
    clear hs hfl hit hfree
    induction ts generalizing xs y0 with
    | nil => simp [GoodChain]
    | cons t ts ih =>
      cases xs with
      | nil => trivial
      | cons y xs =>
        rw [List.isChain_cons_cons] at hap
        exact ⟨⟨hin _ List.mem_cons_self, hin _ (by simp), hap.1⟩, ih y xs (by simpa using hl') hap.2 (fun v hv => hin v (List.mem_cons_of_mem _ hv))⟩

theorem EaSkel.Free.start (h : s.Free) : ∃ x0, s.x.head? = some x0 := by
  have h0 := h.valid.start
  have hl := h.valid.len
  rcases hx : s.x with _ | ⟨x0, xs⟩
  · rw [hx, List.length_nil, eq_comm, List.length_eq_zero_iff] at hl
    simp [hl] at h0
  · exact ⟨x0, rfl⟩

theorem bound_le (h : s.tight < s.hitX ∧ s.hitX < s.loose) : s.bound ≤ s.loose := by
  unfold EaSkel.bound
  split_ifs
  · exact le_rfl
  · exact h.2.le

theorem measAll_fun {F : List ℝ → ℝ≥0∞} (hF : ∀ n, Measurable fun z : Fin n → ℝ => F (List.ofFn z)) (x0 : ℝ) : MeasAll fun ws => F (x0 :: ws) :=
  MeasAll.append_left (fun n => (hF n).comp measurable_snd) [x0]

theorem interp_fold (hk : 0 < k) (h : s.Free) (hT : s.Times newT) (hx : s.x.head? = some x0) {ts xs : List ℝ} (ht : s.t = 0 :: ts) (hxs : s.x = x0 :: xs) {F : List ℝ → List ℝ → ℝ≥0∞}
    (hF : ∀ t n, Measurable fun z : Fin n → ℝ => F t (List.ofFn z)) :
    (Monotone fun n => (interpolateSkel n k s newT).lexp (onOk fun r => F r.1.t r.1.x)) ∧
    ⨆ n, (interpolateSkel n k s newT).lexp (onOk fun r => F r.1.t r.1.x) = foldOp (limOp s.bound s.tight newT) 0 x0 (ts.zip xs) fun ws => F (0 :: weaveT newT 0 ts) (x0 :: ws) := by
  obtain ⟨ts', xs', ht', hxs', hl, -, hz, hg⟩ := h.split hx
  obtain rfl : ts' = ts := (List.cons.inj (ht'.symm.trans ht)).2
  obtain rfl : xs' = xs := (List.cons.inj (hxs'.symm.trans hxs)).2
  have e : ∀ n, (interpolateSkel n k s newT).lexp (onOk fun r => F r.1.t r.1.x) =
      (gapProg n k newT s.tight s.bound 0 x0 (ts'.zip xs')).lexp (onOk fun ws => F (0 :: weaveT newT 0 ts') (x0 :: ws)) := by
    intro n
    rw [interp_gaps h.valid h.hit h.free (fun v hv => ⟨(h.inside v hv).1, (h.inside v hv).2.trans_le (bound_le h.hit)⟩) ht hxs hT.1 (fun r hr => (hT.2 r hr).1)
      (fun r hr => (hT.2 r hr).2) (fun q => F q.t q.x)]
    congr 1
    funext r
    rcases r with e | ws
    · rfl
    · simp [onOk, EaSkel.next, ht, hxs]
  simp only [e]
  exact gapProg_lim hk hT.1 (by rw [hz, ← ht]; exact h.valid.sorted) hg (measAll_fun (hF _) x0 _)

/-- The values of a skeleton that is filled in are those of the path, given what is known: its density at old and new times, divided by the one at the old times.
The budget `n` of proposals per gap grows. -/
theorem C113_law (hk : 0 < k) (h : s.Free) (hT : s.Times newT) (hx : s.x.head? = some x0) {F : List ℝ → ℝ≥0∞} (hF : ∀ n, Measurable fun z : Fin n → ℝ => F (List.ofFn z)) :
    Tendsto (fun n => (interpolateSkel n k s newT).lexp (onOk fun r => F r.1.x)) atTop
      (𝓝 (pinInt (edgeKer s.bound s.tight) 0 x0 (weave newT 0 s.points) (fun ws => F (x0 :: ws)) / pinInt (edgeKer s.bound s.tight) 0 x0 s.points fun _ => 1)) ∧
    ∀ n, (interpolateSkel n k s newT).lexp (onOk fun r => F r.1.x) ≤
      pinInt (edgeKer s.bound s.tight) 0 x0 (weave newT 0 s.points) (fun ws => F (x0 :: ws)) / pinInt (edgeKer s.bound s.tight) 0 x0 s.points fun _ => 1 := by
  obtain ⟨ts, xs, ht, hxs, hl, hp, hz, hg⟩ := h.split hx
  obtain ⟨hm, hsup⟩ := interp_fold (F := fun _ => F) hk h hT hx ht hxs (fun _ => hF)
  have hs : (0 :: (ts.zip xs).map Prod.fst).Pairwise (· < ·) := by rw [hz, ← ht]; exact h.valid.sorted
  have hd := known_dens (ts.zip xs) 0 x0 hs hg
  have hpin := pin_fold hT.1 (ts.zip xs) 0 x0 hs hg (measAll_fun hF x0 _)
  have e : pinInt (edgeKer s.bound s.tight) 0 x0 (weave newT 0 s.points) (fun ws => F (x0 :: ws)) / pinInt (edgeKer s.bound s.tight) 0 x0 s.points (fun _ => 1) =
      ⨆ n, (interpolateSkel n k s newT).lexp (onOk fun r => F r.1.x) := by
    rw [hsup, hp, hpin, ENNReal.mul_div_right_comm, ENNReal.div_self hd.1 hd.2, one_mul]
  rw [e]
  exact ⟨tendsto_atTop_iSup hm, fun n => le_iSup (fun n => (interpolateSkel n k s newT).lexp (onOk fun r => F r.1.x)) n⟩

/-- The two densities are those of the same path: the one at the old times results if the values at the new times are integrated over, and it is positive and finite. -/
theorem C113_marginal (h : s.Free) (hT : s.Times newT) (hx : s.x.head? = some x0) :
    pinInt (edgeKer s.bound s.tight) 0 x0 (weave newT 0 s.points) (fun _ => 1) = pinInt (edgeKer s.bound s.tight) 0 x0 s.points (fun _ => 1) ∧
    pinInt (edgeKer s.bound s.tight) 0 x0 s.points (fun _ => 1) ≠ 0 ∧ pinInt (edgeKer s.bound s.tight) 0 x0 s.points (fun _ => 1) ≠ ∞ := by
  obtain ⟨ts, xs, ht, hxs, hl, hp, hz, hg⟩ := h.split hx
  have hs : (0 :: (ts.zip xs).map Prod.fst).Pairwise (· < ·) := by rw [hz, ← ht]; exact h.valid.sorted
  have hd := known_dens (ts.zip xs) 0 x0 hs hg
  have hpin := pin_fold hT.1 (ts.zip xs) 0 x0 hs hg (F := fun _ => 1) measurable_const
  rw [hp, hpin]
  refine ⟨?_, hd⟩
  suffices hone : ∀ (l : List (ℝ × ℝ)) (r x : ℝ), (r :: l.map Prod.fst).Pairwise (· < ·) → GoodChain s.bound s.tight x l → foldOp (limOp s.bound s.tight newT) r x l (fun _ => 1) = 1 by
    rw [hone _ _ _ hs hg, mul_one]
  intro l
  induction l with
  | nil => intros; rfl
  | cons q l ih =>
    intro r x hs hg
    rw [List.map_cons, List.pairwise_cons] at hs
    have hrq := hs.1 _ List.mem_cons_self
    obtain ⟨t, y⟩ := q
    simp only [foldOp, ih t y hs.2 hg.2, limOp]
    rw [if_pos ⟨hrq, hg.1⟩, edge_mass hg.1 (stepsIn_ne _ _) (stepsIn_pos hT.1 hrq), stepsIn_sum]
    have := edgeKer_pos (sub_pos.2 hrq) hg.1
    exact ENNReal.div_self this.1 this.2

/-- The filling in ends with certainty as the budget grows. -/
theorem C113_total (hk : 0 < k) (h : s.Free) (hT : s.Times newT) : Tendsto (fun n => (interpolateSkel n k s newT).prob fun r => ∃ q, r = .ok q) atTop (𝓝 1) := by
  obtain ⟨x0, hx⟩ := h.start
  have hl := (C113_law (F := fun _ => 1) hk h hT hx (fun _ => measurable_const)).1
  obtain ⟨hm, h0, h1⟩ := C113_marginal h hT hx
  rw [hm, ENNReal.div_self h0 h1] at hl
  refine hl.congr fun n => ?_
  unfold Prog.prob
  congr 1
  funext r
  rcases r with e | q <;> simp [onOk]

/-- Filling in twice is filling in once, at all times: the skeleton after two rounds, at the times `A` and then `B`, has the law of the skeleton
after one round at the times in `A` or `B`. -/
theorem C113_rounds (hk : 0 < k) (h : s.Free) (hA : s.Times A) (hB : s.Times B) (hC : s.Times C) (hABC : ∀ r, r ∈ C ↔ r ∈ A ∨ r ∈ B)
    (hflag : s.hitI = none ∨ A = [] ∨ ∃ r ∈ A, r ∉ s.t) {F : List ℝ → List ℝ → ℝ≥0∞} (hF : ∀ t n, Measurable fun z : Fin n → ℝ => F t (List.ofFn z)) :
    ∃ L, Tendsto (fun n => ((interpolateSkel n k s A).bind fun r => interpolateSkel n k r.1 B).lexp (onOk fun r => F r.1.t r.1.x)) atTop (𝓝 L) ∧
      Tendsto (fun n => (interpolateSkel n k s C).lexp (onOk fun r => F r.1.t r.1.x)) atTop (𝓝 L) := by
  obtain ⟨x0, hx⟩ := h.start
  obtain ⟨ts, xs, ht, hxs, hl, hp, hz, hg⟩ := h.split hx
  obtain ⟨hm, hsup⟩ := interp_fold (F := F) hk h hC hx ht hxs hF
  have hs : (0 :: (ts.zip xs).map Prod.fst).Pairwise (· < ·) := by rw [hz, ← ht]; exact h.valid.sorted
  have hs' : (0 :: ts).Pairwise (· < ·) := by rw [← ht]; exact h.valid.sorted
  refine ⟨_, ?_, tendsto_atTop_iSup hm⟩
  rw [hsup]
  have hin : ∀ v ∈ s.x, s.tight ≤ v ∧ v < s.loose := fun v hv => ⟨(h.inside v hv).1, (h.inside v hv).2.trans_le (bound_le h.hit)⟩
  set W := weaveT A 0 ts with hW
  have hWs : (0 :: W).Pairwise (· < ·) := weaveT_sorted hA.1 hs'
  have e : ∀ n, ((interpolateSkel n k s A).bind fun r => interpolateSkel n k r.1 B).lexp (onOk fun r => F r.1.t r.1.x) =
      (gapProg n k A s.tight s.bound 0 x0 (ts.zip xs)).lexp (onOk fun ws => (interpolateSkel n k (s.next A ws) B).lexp (onOk fun r => F r.1.t r.1.x)) := by
    intro n
    rw [Prog.lexp_bind, ← interp_gaps h.valid h.hit h.free hin ht hxs hA.1 (fun r hr => (hA.2 r hr).1) (fun r hr => (hA.2 r hr).2)
      (fun q => (interpolateSkel n k q B).lexp (onOk fun r => F r.1.t r.1.x))]
    congr 1
  simp only [e]
  refine (gapProg_two hk hA.1 hB.1 hC.1 hABC hs hg (measAll_fun (hF _) x0 _) (Q := fun n ws => (interpolateSkel n k (s.next A ws) B).lexp (onOk fun r => F r.1.t r.1.x)) ?_).1
  intro n ws hw hc
  rw [hz, ← hW] at hw hc
  have hnt : (s.next A ws).t = 0 :: W := by simp [EaSkel.next, ht, hW]
  have hnx : (s.next A ws).x = x0 :: ws := by simp [EaSkel.next, hxs]
  have hnb : (s.next A ws).bound = s.bound := by
    unfold EaSkel.bound EaSkel.next
    simp only
    rcases hflag with h1 | h1 | ⟨r, hr, hrt⟩
    · simp [h1]
    · simp [h1]
    · have h1 : A ≠ [] := List.ne_nil_of_mem hr
      have h2 : freshT A s.t ≠ [] := List.ne_nil_of_mem (a := r) (by simp [freshT, hr, hrt])
      rw [if_neg h1, if_neg h2]
      simp
  have hvals : ∀ v ∈ ws, s.tight ≤ v ∧ v < s.bound := by
    have key : ∀ (l : List (ℝ × ℝ)) (x : ℝ), GoodChain s.bound s.tight x l → ∀ v ∈ l.map Prod.snd, s.tight ≤ v ∧ v < s.bound := by
      intro l
      induction l with
      | nil => intro x _ v hv; simp at hv
      | cons q l ih =>
        intro x hc v hv
        rcases List.mem_cons.1 hv with rfl | hv
        · exact hc.1.2.1
        · exact ih _ hc.2 v hv
    have := key _ _ hc
    rwa [List.map_snd_zip hw.le] at this
  have hnv : (s.next A ws).Valid := by
    refine ⟨by rw [hnt]; exact hWs, by rw [hnt]; rfl, by rw [hnt, hnx]; simp [hw], fun hs e => ?_⟩
    rw [hnt]
    simp only [EaSkel.next, ht] at e
    split_ifs at e with h1 h2
    · have := h.valid.flags hs e
      rw [this, ht, hW, h1, (gapProg_nil (n := n) (k := k) (m := 0) (V := 0) ts xs 0 x0 hl).2]
    · rw [Option.map_eq_some_iff] at e
      obtain ⟨_, _, rfl⟩ := e
      simp [hW]
  have hnh : (s.next A ws).NoHit := by
    intro hs e
    simp only [EaSkel.next] at e
    split_ifs at e with h1 h2
    · exact h.free hs e
    · rw [Option.map_eq_some_iff] at e
      obtain ⟨_, _, rfl⟩ := e
      simp
  have hx0 := h.inside x0 (by simp [hxs])
  rw [interp_gaps hnv h.hit hnh ?_ hnt hnx hB.1 (fun r hr => (hB.2 r hr).1) ?_ (fun q => F q.t q.x), hnb]
  · rw [hz, ← hW]
    have e2 : (s.next A ws).tight = s.tight := rfl
    rw [e2]
    congr 1
    funext r
    rcases r with e | us
    · rfl
    rw [onOk, onOk]
    congr 1
    · rw [EaSkel.next, hnt]
      simp [hW, weaveT_weaveT hA.1 hB.1 hC.1 hABC hs']
    · rw [EaSkel.next, hnx]
      simp
  · intro v hv
    rw [hnx] at hv
    have : s.tight ≤ v ∧ v < s.bound := by
      rcases List.mem_cons.1 hv with rfl | hv
      · exact hx0
      · exact hvals v hv
    exact ⟨this.1, this.2.trans_le (bound_le h.hit)⟩
  · intro r hr
    obtain ⟨f, hf, hrf⟩ := (hB.2 r hr).2
    refine ⟨f, ?_, hrf⟩
    rw [hnt]
    rw [ht] at hf
    rcases List.mem_cons.1 hf with rfl | hf
    · simp
    · exact List.mem_cons_of_mem _ ((weaveT_mem hs').2 (Or.inl hf))

theorem free_flip (h : s.neg.Free) {f c : ℝ} (hf : s.t.getLast? = some f) : (flipWith f c s).Free := by
  have hv : s.Valid := ⟨h.valid.sorted, h.valid.start, by simpa [EaSkel.neg] using h.valid.len, h.valid.flags⟩
  have hh := h.hit
  have hb : s.neg.bound = -(if s.hitI = none then s.loose else s.hitX) := by
    unfold EaSkel.bound EaSkel.neg
    split_ifs <;> rfl
  have hb' : (flipWith f c s).bound = 2 * c - (if s.hitI = none then s.loose else s.hitX) := by
    unfold EaSkel.bound flipWith
    simp only [Option.map_eq_none_iff]
    split_ifs <;> rfl
  refine ⟨(flipWith_valid hv hf c).1, ?_, ?_, ?_, ?_⟩
  · simp only [EaSkel.neg, flipWith] at hh ⊢
    constructor <;> linarith [hh.1, hh.2]
  · intro hs e
    simp only [flipWith, Option.map_eq_some_iff] at e
    obtain ⟨hs', e, rfl⟩ := e
    simpa using h.free hs' e
  · intro v hv
    simp only [flipWith, mem_flipList] at hv
    have := h.inside (-(2 * c - v)) (by simpa [EaSkel.neg] using hv)
    rw [hb] at this
    rw [hb']
    simp only [EaSkel.neg, flipWith] at this ⊢
    constructor <;> linarith [this.1, this.2]
  · have := h.apart
    simp only [EaSkel.neg, flipWith, flipList] at this ⊢
    rw [List.isChain_map] at this ⊢
    rw [List.isChain_reverse]
    refine this.imp fun a b hab => ?_
    rcases hab with h1 | h1
    · exact Or.inr (by linarith)
    · exact Or.inl (by linarith)

theorem interp_flip_all {s : EaSkel} {newT : List ℝ} {f x0 x1 : ℝ} (hv : s.Valid) (hlt : s.loose < s.tight) (hN : newT.Pairwise (· < ·))
    (hf : s.t.getLast? = some f) (hx0 : s.x.head? = some x0) (hx1 : s.x.getLast? = some x1) (hin : ∀ r ∈ newT, 0 ≤ r ∧ r ≤ f) (G : EaSkel → ℝ≥0∞) :
    (interpolateSkel n k s newT).lexp (onOk fun r => G r.1) = (interpolateSkel n k (flipWith f ((x0 + x1) / 2) s) (flipList f newT)).lexp
      (onOk fun r => G (flipWith f ((x0 + x1) / 2) r.1)) := by
  by_cases h0 : newT = []
  · subst h0
    simp [interpolateSkel, flipList, onOk, flipWith_flip]
  · exact interp_flip hv hlt hN h0 hf hx0 hx1 hin fun r => G r.1

theorem times_flip {f : ℝ} (hv : s.Valid) (hf : s.t.getLast? = some f) (c : ℝ) (h : s.Times newT) : (∀ r ∈ newT, 0 ≤ r ∧ r ≤ f) ∧ (flipWith f c s).Times (flipList f newT) := by
  have hin : ∀ r ∈ newT, 0 ≤ r ∧ r ≤ f := by
    intro r hr
    obtain ⟨h1, g, hg, hrg⟩ := h.2 r hr
    refine ⟨h1, hrg.trans ?_⟩
    obtain ⟨l, hl⟩ := List.getLast?_eq_some_iff.1 hf
    have hs := hv.sorted
    rw [hl, List.pairwise_append] at hs
    rw [hl, List.mem_append, List.mem_singleton] at hg
    rcases hg with hg | rfl
    · exact (hs.2.2 g hg f (by simp)).le
    · exact le_rfl
  refine ⟨hin, flipList_sorted h.1, fun r hr => ?_⟩
  rw [mem_flipList] at hr
  have := hin _ hr
  refine ⟨by linarith, f, ?_, by linarith⟩
  simp only [flipWith, mem_flipList, sub_self]
  exact List.mem_of_head? hv.start

/-- The same for a path with a maximum. -/
theorem C113_rounds_max (hk : 0 < k) (h : s.neg.Free) (hA : s.Times A) (hB : s.Times B) (hC : s.Times C) (hABC : ∀ r, r ∈ C ↔ r ∈ A ∨ r ∈ B)
    (hflag : s.hitI = none ∨ A = [] ∨ ∃ r ∈ A, r ∉ s.t) {F : List ℝ → List ℝ → ℝ≥0∞} (hF : ∀ t n, Measurable fun z : Fin n → ℝ => F t (List.ofFn z)) :
    ∃ L, Tendsto (fun n => ((interpolateSkel n k s A).bind fun r => interpolateSkel n k r.1 B).lexp (onOk fun r => F r.1.t r.1.x)) atTop (𝓝 L) ∧
      Tendsto (fun n => (interpolateSkel n k s C).lexp (onOk fun r => F r.1.t r.1.x)) atTop (𝓝 L) := by
  have hv : s.Valid := ⟨h.valid.sorted, h.valid.start, by simpa [EaSkel.neg] using h.valid.len, h.valid.flags⟩
  obtain ⟨f, x0, x1, hf, hx0, hx1, -, -, -⟩ := flipSkel_eq hv
  have hlt : s.loose < s.tight := by
    have := h.hit
    simp only [EaSkel.neg] at this
    linarith [this.1, this.2]
  set c := (x0 + x1) / 2 with hc
  obtain ⟨iA, tA⟩ := times_flip hv hf c hA
  obtain ⟨iB, tB⟩ := times_flip hv hf c hB
  obtain ⟨iC, tC⟩ := times_flip hv hf c hC
  have hvf := flipWith_valid hv hf c
  have hone : ∀ n, (interpolateSkel n k s C).lexp (onOk fun r => F r.1.t r.1.x) = (interpolateSkel n k (flipWith f c s) (flipList f C)).lexp (onOk fun r => F (flipList f r.1.t) (flipList (2 * c) r.1.x)) :=
    fun n => interp_flip_all hv hlt hC.1 hf hx0 hx1 iC fun q => F q.t q.x
  have htwo : ∀ n, ((interpolateSkel n k s A).bind fun r => interpolateSkel n k r.1 B).lexp (onOk fun r => F r.1.t r.1.x) =
      ((interpolateSkel n k (flipWith f c s) (flipList f A)).bind fun r => interpolateSkel n k r.1 (flipList f B)).lexp (onOk fun r => F (flipList f r.1.t) (flipList (2 * c) r.1.x)) := by
    intro n
    rw [Prog.lexp_bind, Prog.lexp_bind]
    refine Eq.trans (b := (interpolateSkel n k s A).lexp (onOk fun r => (interpolateSkel n k r.1 B).lexp (onOk fun r => F r.1.t r.1.x))) ?_ ?_
    · congr 1
    rw [interp_flip_all hv hlt hA.1 hf hx0 hx1 iA fun q => (interpolateSkel n k q B).lexp (onOk fun r => F r.1.t r.1.x)]
    refine Prog.lexp_congr ?_
    rintro (e | ⟨q, vals⟩) hq
    · rfl
    rw [Prog.cont_ok, onOk]
    simp only [← hc]
    have hst : q.Valid ∧ q.t.getLast? = some f ∧ q.x.head? = (flipWith f c s).x.head? ∧ q.x.getLast? = (flipWith f c s).x.getLast? ∧ q.tight = 2 * c - s.tight ∧ q.loose = 2 * c - s.loose := by
      by_cases h0 : flipList f A = []
      · rw [← hc, h0] at hq
        simp only [interpolateSkel, if_true, Prog.out_ret, Except.ok.injEq, Prod.mk.injEq] at hq
        obtain ⟨rfl, -⟩ := hq
        exact ⟨hvf.1, hvf.2, rfl, rfl, rfl, rfl⟩
      · have := interpolateSkel_out hvf.1 tA.1 h0 hq
        exact ⟨this.valid, by rw [this.last, hvf.2], this.xfirst, this.xlast, this.tight, this.loose⟩
    obtain ⟨v1, v2, v3, v4, v5, v6⟩ := hst
    have w1 := flipWith_valid v1 v2 c
    have w3 : (flipWith f c q).x.head? = some x0 := by
      simp only [flipWith, flipList_head, v4, flipList_last, hx0]
      simp
    have w4 : (flipWith f c q).x.getLast? = some x1 := by
      simp only [flipWith, flipList_head, v3, flipList_last, hx1]
      simp
    have w5 : (flipWith f c q).loose < (flipWith f c q).tight := by
      simp only [flipWith, v5, v6]
      linarith
    rw [interp_flip_all w1.1 w5 hB.1 w1.2 w3 w4 iB fun q => F q.t q.x, ← hc, flipWith_flip]
    rfl
  simp only [hone, htwo]
  refine C113_rounds (F := fun t x => F (flipList f t) (flipList (2 * c) x)) hk (free_flip h hf) tA tB tC (fun r => ?_) ?_ fun t n => ?_
  · simp only [mem_flipList, hABC]
  · rcases hflag with h1 | h1 | ⟨r, hr, hrt⟩
    · exact Or.inl (by simp [flipWith, h1])
    · exact Or.inr (Or.inl (by simp [flipList, h1]))
    · exact Or.inr (Or.inr ⟨f - r, by simpa [mem_flipList] using hr, by simpa [flipWith, mem_flipList] using hrt⟩)
  · have := measAll_flip (2 * c) (f := F (flipList f t)) (fun n => (hF _ n).comp measurable_snd) n
    exact Measurable.comp (g := fun p : Unit × (Fin n → ℝ) => F (flipList f t) (flipList (2 * c) (List.ofFn p.2))) this ((measurable_const (a := ())).prodMk measurable_id)

/-! ## A round at known times only -/

/-- A path with the minimum 0 at time 1/2 that does not reach the level 2. -/
noncomputable def demoFree : EaSkel := ⟨[0, 1/2, 1], [1, 0, 1], 0, 3, 2, some [false, false]⟩

theorem demoFree_free : demoFree.Free := by
  refine ⟨⟨?_, rfl, rfl, ?_⟩, ?_, ?_, ?_, ?_⟩
  · simp [demoFree]; norm_num
  · intro hs e
    simp only [demoFree, Option.some.injEq] at e
    subst e
    rfl
  · simp [demoFree]; norm_num
  · intro hs e
    simp only [demoFree, Option.some.injEq] at e
    subst e
    simp
  · simp [demoFree, EaSkel.bound]
  · simp [demoFree]

/-- The same path, about which less is known: it does not reach the level 3. -/
noncomputable def demoLoose : EaSkel := ⟨[0, 1/2, 1], [1, 0, 1], 0, 3, 2, none⟩

theorem demoLoose_free : demoLoose.Free := by
  refine ⟨⟨demoFree_free.valid.sorted, rfl, rfl, by simp [demoLoose]⟩, demoFree_free.hit, by simp [EaSkel.NoHit, demoLoose], ?_, demoFree_free.apart⟩
  simp [demoLoose, EaSkel.bound]

theorem demo_known (G : EaSkel → ℝ≥0∞) : (interpolateSkel n k demoFree [1/2]).lexp (onOk fun r => G r.1) = G demoLoose := by
  have h := demoFree_free
  have hs := h.valid.sorted
  rw [interp_gaps h.valid h.hit h.free (fun v hv => ⟨(h.inside v hv).1, (h.inside v hv).2.trans_le (bound_le h.hit)⟩) (t0 := 0) (ts := [1/2, 1]) (x0 := 1) (xs := [0, 1]) rfl rfl
    (by simp) (by simp) (by simp [demoFree])]
  have e1 : freshT [1/2] demoFree.t = [] := by simp [freshT, demoFree]
  obtain ⟨g1, g2⟩ := gapProg_newT (A := [1/2]) (B := []) (n := n) (k := k) (m := demoFree.tight) (V := demoFree.bound) [1/2, 1] [0, 1] 0 1 hs (by simp +contextual) (by simp) (by simp)
  obtain ⟨g3, g4⟩ := gapProg_nil (n := n) (k := k) (m := demoFree.tight) (V := demoFree.bound) [1/2, 1] [0, 1] 0 1 rfl
  rw [g1, g3, Prog.lexp_ret, onOk]
  congr 1
  rw [g4] at g2
  unfold EaSkel.next
  rw [e1]
  simp only [demoFree, demoLoose, List.tail_cons, List.headD_cons, g2]
  simp

theorem measurable_second (n : ℕ) : Measurable fun z : Fin n → ℝ => (List.ofFn z).getD 1 0 := by
  rcases n with _ | _ | n
  · simp
  · simp
  · have : (fun z : Fin (n + 2) → ℝ => (List.ofFn z).getD 1 0) = fun z => z 1 := by
      funext z
      simp [List.ofFn_succ]
    rw [this]
    exact measurable_pi_apply _

theorem demo_weave (l : List ℝ) (hl : l = [1/4] ∨ l = [1/4, 1/2]) (fl : Option (List Bool)) : weave l 0 (EaSkel.points ⟨[0, 1/2, 1], [1, 0, 1], 0, 3, 2, fl⟩) = [(1/4, none), (1/2, some 0), (1, some 1)] := by
  rcases hl with rfl | rfl
  · simp only [EaSkel.points, List.tail_cons, List.map_cons, List.map_nil, List.zip_cons_cons, List.zip_nil_left, weave, between]
    norm_num [List.filter_cons]
  · simp only [EaSkel.points, List.tail_cons, List.map_cons, List.map_nil, List.zip_cons_cons, List.zip_nil_left, weave, between]
    norm_num [List.filter_cons]

/-- The proviso of `C113_rounds` is needed: a round at known times only forgets the flags (`C46_flags_lost`), so that a second round samples a path below the loose edge,
rather than one below the hitting level. -/
theorem C113_flags_needed : ∃ (s : EaSkel) (A B C : List ℝ) (F : List ℝ → ℝ≥0∞), s.Free ∧ s.Times A ∧ s.Times B ∧ s.Times C ∧ (∀ r, r ∈ C ↔ r ∈ A ∨ r ∈ B) ∧
    (∀ n, Measurable fun z : Fin n → ℝ => F (List.ofFn z)) ∧ ∀ k, 0 < k → ∃ L L', L ≠ L' ∧
      Tendsto (fun n => ((interpolateSkel n k s A).bind fun r => interpolateSkel n k r.1 B).lexp (onOk fun r => F r.1.x)) atTop (𝓝 L) ∧
      Tendsto (fun n => (interpolateSkel n k s C).lexp (onOk fun r => F r.1.x)) atTop (𝓝 L') := by
  have hB : demoFree.Times [1/4] := ⟨by simp, by simp [demoFree]; norm_num⟩
  have hC : demoFree.Times [1/4, 1/2] := ⟨by simp; norm_num, by simp [demoFree]; norm_num⟩
  have hF : ∀ n, Measurable fun z : Fin n → ℝ => (if 2 < (List.ofFn z).getD 1 0 then 1 else 0 : ℝ≥0∞) := fun n =>
    Measurable.ite (measurableSet_lt measurable_const (measurable_second n)) measurable_const measurable_const
  refine ⟨demoFree, [1/2], [1/4], [1/4, 1/2], fun x => if 2 < x.getD 1 0 then 1 else 0, demoFree_free, ⟨by simp, by simp [demoFree]⟩, hB, hC, by simp [or_comm], hF, fun k hk => ?_⟩
  have h1 := (C113_law (F := fun x => if 2 < x.getD 1 0 then 1 else 0) (x0 := 1) hk demoLoose_free (newT := [1/4]) hB rfl hF).1
  have h2 := (C113_law (F := fun x => if 2 < x.getD 1 0 then 1 else 0) (x0 := 1) hk demoFree_free hC rfl hF).1
  have h3 : ∀ n, ((interpolateSkel n k demoFree [1/2]).bind fun r => interpolateSkel n k r.1 [1/4]).lexp (onOk fun r => if 2 < r.1.x.getD 1 0 then 1 else 0) =
      (interpolateSkel n k demoLoose [1/4]).lexp (onOk fun r => if 2 < r.1.x.getD 1 0 then 1 else 0) := by
    intro n
    rw [Prog.lexp_bind, ← demo_known (n := n) (k := k) fun q => (interpolateSkel n k q [1/4]).lexp (onOk fun r => if 2 < r.1.x.getD 1 0 then 1 else 0)]
    congr 1
  simp only [h3]
  refine ⟨_, _, ?_, h1, h2⟩
  · have z2 : pinInt (edgeKer demoFree.bound demoFree.tight) 0 1 (weave [1/4, 1/2] 0 demoFree.points) (fun ws => if 2 < (1 :: ws).getD 1 0 then 1 else 0) = 0 := by
      rw [demoFree, demo_weave _ (Or.inr rfl)]
      simp only [pinInt]
      refine (lintegral_congr fun z => ?_).trans lintegral_zero
      by_cases hz : 2 < z
      · rw [edgeKer_out (by simp [demoFree, EaSkel.bound]) (Or.inr (by simpa [demoFree, EaSkel.bound] using hz.le)), zero_mul]
      · simp [hz]
    rw [z2, ENNReal.zero_div]
    refine ENNReal.div_ne_zero.2 ⟨?_, (C113_marginal (x0 := 1) demoLoose_free (newT := [1/4]) hB rfl).2.2⟩
    rw [demoLoose, demo_weave _ (Or.inl rfl), ← demoLoose]
    simp only [pinInt]
    have hK := measK_edge (demoLoose.bound) demoFree.tight
    have hm1 : Measurable fun z : ℝ => edgeKer (demoLoose.bound) demoFree.tight (1/4 - 0) 1 z :=
      (hK _).comp (f := fun z : ℝ => ((), (1 : ℝ), z)) (by fun_prop)
    have hm2 : Measurable fun z : ℝ => edgeKer (demoLoose.bound) demoFree.tight (1/2 - 1/4) z 0 :=
      (hK _).comp (f := fun z : ℝ => ((), z, (0 : ℝ))) (by fun_prop)
    refine (LT.lt.ne' ?_)
    rw [lintegral_pos_iff_support]
    · refine lt_of_lt_of_le ?_ (measure_mono (s := Ioo 2 3) fun z hz => ?_)
      · simp; norm_num
      · have hb : demoLoose.bound = 3 := by simp [demoLoose, EaSkel.bound]
        have hz0 : (0 : ℝ) < z := by linarith [hz.1]
        have p1 := (edgeKer_pos (U := 3) (m := 0) (v := 1/4 - 0) (x := 1) (y := z) (by norm_num) ⟨by norm_num, ⟨hz0.le, hz.2⟩, Or.inl one_pos⟩).1
        have p2 := (edgeKer_pos (U := 3) (m := 0) (v := 1/2 - 1/4) (x := z) (y := 0) (by norm_num) ⟨⟨hz0.le, hz.2⟩, by norm_num, Or.inl hz0⟩).1
        have p3 := (edgeKer_pos (U := 3) (m := 0) (v := 1 - 1/2) (x := 0) (y := 1) (by norm_num) ⟨by norm_num, by norm_num, Or.inr one_pos⟩).1
        rw [Function.mem_support, hb]
        show edgeKer 3 0 (1/4 - 0) 1 z * (edgeKer 3 0 (1/2 - 1/4) z 0 * (edgeKer 3 0 (1 - 1/2) 0 1 * if 2 < z then 1 else 0)) ≠ 0
        rw [if_pos hz.1, mul_one]
        exact mul_ne_zero p1 (mul_ne_zero p2 p3)
    · refine hm1.mul (hm2.mul (measurable_const.mul ?_))
      exact Measurable.ite (measurableSet_lt measurable_const measurable_id) measurable_const measurable_const

/-- The hypotheses can be met: new times in both gaps. -/
example : demoFree.Free ∧ demoFree.Times [1/4] ∧ demoFree.Times [1/8, 3/4] ∧ demoFree.Times [1/8, 1/4, 3/4] ∧ ∃ r ∈ [(1/4 : ℝ)], r ∉ demoFree.t :=
  ⟨demoFree_free, ⟨by simp, by simp [demoFree]; norm_num⟩, ⟨by simp; norm_num, by simp [demoFree]; norm_num⟩, ⟨by simp; norm_num, by simp [demoFree]; norm_num⟩,
    1/4, by simp, by simp [demoFree]⟩

/-- ... also for a maximum. -/
example : EaSkel.Free (EaSkel.neg ⟨[0, 1/2, 1], [1, 3, 2], 3, 0, 1/2, none⟩) ∧ EaSkel.Times ⟨[0, 1/2, 1], [1, 3, 2], 3, 0, 1/2, none⟩ [1/4] := by
  refine ⟨⟨⟨?_, rfl, rfl, by simp [EaSkel.neg]⟩, ?_, by simp [EaSkel.NoHit, EaSkel.neg], ?_, ?_⟩, by simp, by simp; norm_num⟩
  · simp [EaSkel.neg]; norm_num
  · simp [EaSkel.neg]; norm_num
  · simp [EaSkel.neg, EaSkel.bound]; norm_num
  · simp [EaSkel.neg]; norm_num

end Ctb
