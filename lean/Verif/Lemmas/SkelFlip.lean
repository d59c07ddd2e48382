import Verif.Lemmas.SkelFill
import Verif.Spec.EaSkel

set_option linter.unusedSectionVars false

/-! # Flipping a skeleton; flags of a refinement -/

namespace Ctb

open Classical

variable {t x newT t' x' vals : List ℝ} {f c r v : ℝ} {s : EaSkel}

/-- Mirror images of times and of values. -/
noncomputable def flipList (f : ℝ) (l : List ℝ) : List ℝ := l.reverse.map (f - ·)

/-- The flipped skeleton with given mirror points. -/
noncomputable def flipWith (f c : ℝ) (s : EaSkel) : EaSkel :=
  ⟨flipList f s.t, flipList (2 * c) s.x, 2 * c - s.tight, 2 * c - s.loose, 2 * c - s.hitX, s.hitI.map List.reverse⟩

theorem flipList_flip (f : ℝ) (l : List ℝ) : flipList f (flipList f l) = l := by
  simp [flipList, Function.comp_def]

theorem mem_flipList {l : List ℝ} : r ∈ flipList f l ↔ f - r ∈ l := by
  simp only [flipList, List.mem_map, List.mem_reverse]
  constructor
  · rintro ⟨a, ha, rfl⟩; simpa using ha
  · intro h; exact ⟨_, h, by ring⟩

theorem flipList_sorted (h : t.Pairwise (· < ·)) : (flipList f t).Pairwise (· < ·) := by
  unfold flipList
  rw [List.pairwise_map, List.pairwise_reverse]
  exact h.imp fun h => by linarith

theorem flipList_length : (flipList f t).length = t.length := by simp [flipList]

theorem zip_reverse_eq {α β : Type} : ∀ {l : List α} {l' : List β}, l'.length = l.length → l.reverse.zip l'.reverse = (l.zip l').reverse := by
  intro l
  induction l with
  | nil => intro l' h; simp
  | cons a l ih =>
    intro l' h
    cases l' with
    | nil => simp at h
    | cons b l' =>
      simp only [List.length_cons, Nat.add_right_cancel_iff] at h
      simp only [List.reverse_cons, List.zip_cons_cons]
      rw [List.zip_append (by simp [h]), ih h]
      rfl

theorem flip_zip (h : x.length = t.length) : (flipList f t).zip (flipList c x) = (t.zip x).reverse.map (Prod.map (f - ·) (c - ·)) := by
  unfold flipList
  rw [List.zip_map, zip_reverse_eq h]

theorem mem_flip_zip (h : x.length = t.length) : (r, v) ∈ (flipList f t).zip (flipList c x) ↔ (f - r, c - v) ∈ t.zip x := by
  rw [flip_zip h, List.mem_map]
  constructor
  · rintro ⟨⟨a, b⟩, hm, he⟩
    simp only [Prod.map, Prod.mk.injEq] at he
    obtain ⟨rfl, rfl⟩ := he
    simpa using hm
  · intro hm
    exact ⟨_, List.mem_reverse.2 hm, by simp⟩

theorem flipList_head : (flipList f t).head? = t.getLast?.map (f - ·) := by
  simp [flipList]

theorem flipList_last : (flipList f t).getLast? = t.head?.map (f - ·) := by
  simp [flipList]

theorem flipWith_flip (f c : ℝ) (s : EaSkel) : flipWith f c (flipWith f c s) = s := by
  rcases s with ⟨t, x, a, b, d, _ | hs⟩ <;> simp [flipWith, flipList_flip]

/-- `flip_skeleton` of a well-formed skeleton. -/
theorem flipSkel_eq (hv : s.Valid) : ∃ f x0 x1, s.t.getLast? = some f ∧ s.x.head? = some x0 ∧ s.x.getLast? = some x1 ∧ 0 ≤ f ∧
    (∀ r ∈ s.t, 0 ≤ r ∧ r ≤ f) ∧ flipSkel s = .ok (flipWith f ((x0 + x1) / 2) s) := by
  rcases s with ⟨t, x, a, b, d, hi⟩
  obtain ⟨h1, h2, h3, h4⟩ := hv
  simp only at *
  cases t with
  | nil => simp at h2
  | cons t0 t =>
    simp only [List.head?_cons, Option.some.injEq] at h2
    subst h2
    cases x with
    | nil => simp at h3
    | cons x0 x =>
      obtain ⟨f, hf⟩ : ∃ f, (0 :: t : List ℝ).getLast? = some f := ⟨_, List.getLast?_eq_some_getLast (by simp)⟩
      obtain ⟨x1, hx1⟩ : ∃ f, (x0 :: x : List ℝ).getLast? = some f := ⟨_, List.getLast?_eq_some_getLast (by simp)⟩
      have hr : ∀ r ∈ (0 :: t : List ℝ), 0 ≤ r ∧ r ≤ f := by
        intro r hr
        constructor
        · rcases List.mem_cons.1 hr with rfl | hr
          · exact le_rfl
          · exact ((List.pairwise_cons.1 h1).1 r hr).le
        · obtain ⟨l, hl⟩ := List.getLast?_eq_some_iff.1 hf
          rw [hl, List.pairwise_append] at h1
          rw [hl] at hr
          rcases List.mem_append.1 hr with hr | hr
          · exact (h1.2.2 r hr f (by simp)).le
          · simp at hr; exact hr.le
      have hf0 : 0 ≤ f := (hr 0 (by simp)).2
      refine ⟨f, x0, x1, hf, rfl, hx1, hf0, hr, ?_⟩
      unfold flipSkel
      simp only [hf, hx1, List.head?_cons]
      have e1 : reversePath (0 :: t) (x0 :: x) f = .ok (flipList f (0 :: t), (x0 :: x).reverse) := by
        unfold reversePath
        rw [if_neg (not_not.2 hr), if_neg (not_not.2 hf0)]
        rfl
      rw [e1]
      have e2 : reflectPath (flipList f (0 :: t)) (x0 :: x).reverse ((x0 + x1) / 2) =
          .ok (flipList f (0 :: t), flipList (2 * ((x0 + x1) / 2)) (x0 :: x)) := by
        unfold reflectPath
        rw [if_neg (by simp [flipList]), if_neg]
        · rfl
        · rw [not_not]
          intro r h
          rw [mem_flipList] at h
          linarith [(hr _ h).2]
      simp only [e2]
      rfl

theorem flipWith_valid (hv : s.Valid) {f : ℝ} (hf : s.t.getLast? = some f) (c : ℝ) :
    (flipWith f c s).Valid ∧ (flipWith f c s).t.getLast? = some f := by
  refine ⟨⟨flipList_sorted hv.sorted, ?_, ?_, ?_⟩, ?_⟩
  · simp [flipWith, flipList_head, hf]
  · simp [flipWith, flipList_length, hv.len]
  · intro hs h
    simp only [flipWith, Option.map_eq_some_iff] at h
    obtain ⟨hs', h', rfl⟩ := h
    simp [flipWith, flipList_length, hv.flags _ h']
  · simp [flipWith, flipList_last, hv.start]

theorem refines_flip (hx : x.length = t.length) (h : Refines (flipList f t) (flipList c x) (flipList f newT) t' x' vals) :
    Refines t x newT (flipList f t') (flipList c x') (flipList c vals) := by
  refine ⟨flipList_sorted h.sorted, ?_, ?_, ?_, ?_⟩
  · intro r
    rw [mem_flipList, h.times, mem_flipList, mem_flipList]
    simp
  · rw [flipList_length, flipList_length, h.len]
  · rintro ⟨r, v⟩ hp
    rw [mem_flip_zip h.len]
    apply h.old
    rw [mem_flip_zip hx]
    simpa using hp
  · have := h.new
    have e : newT = flipList f (flipList f newT) := (flipList_flip f newT).symm
    rw [e]
    generalize flipList f newT = N at this ⊢
    unfold flipList
    rw [List.forall₂_map_left_iff, List.forall₂_map_right_iff, List.forall₂_reverse_iff]
    refine this.imp ?_
    intro r v hr
    have := (mem_flip_zip (f := f) (c := c) (r := f - r) (v := c - v) h.len).2 (by simpa using hr)
    exact this

/-! ## Flags -/

theorem flags_zip {τ : ℕ → ℝ} {N : ℕ → List ℝ} {F : ℕ → List Bool} {G : ℕ} (h : ∀ j < G, (F j).length = (N j).length + 1) :
    (pairsOf (chainOf τ N G)).zip ((List.range G).flatMap F) =
      (List.range G).flatMap (fun j : ℕ => (pairsOf (τ j :: N j ++ [τ (j + 1)])).zip (F j)) ∧
      (pairsOf (chainOf τ N G)).length = ((List.range G).flatMap F).length := by
  induction G with
  | zero => simp [chainOf, pairsOf]
  | succ G ih =>
    obtain ⟨h1, h2⟩ := ih fun j hj => h j (by omega)
    have h3 := h G (by omega)
    rw [pairsOf_chainOf_succ, List.range_succ, List.flatMap_append, List.flatMap_append, List.zip_append h2, h1]
    constructor
    · simp
    · simp only [List.length_append, h2, List.flatMap_singleton, pairsOf_length, h3]
      simp

theorem pairsOf_getElem {α : Type} (d : α) : ∀ (l : List α) (j : ℕ) (hj : j < (pairsOf l).length), (pairsOf l)[j] = (l.getD j d, l.getD (j + 1) d) := by
  intro l
  induction l with
  | nil => intro j hj; simp [pairsOf] at hj
  | cons a l ih =>
    cases l with
    | nil => intro j hj; simp [pairsOf] at hj
    | cons b l =>
      intro j hj
      cases j with
      | zero => simp [pairsOf]
      | succ j =>
        simp only [pairsOf, List.getElem_cons_succ]
        rw [ih]
        simp

theorem mem_flaggedGaps {hs : List Bool} (hl : hs.length = t.length - 1) {g : ℝ × ℝ} {b : Bool} :
    (g, b) ∈ flaggedGaps t hs ↔ ∃ j < t.length - 1, g = (t.getD j 0, t.getD (j + 1) 0) ∧ hs.getD j false = b := by
  unfold flaggedGaps
  rw [List.mem_iff_getElem]
  simp only [List.length_zip, pairsOf_length, hl, min_self, List.getElem_zip]
  constructor
  · rintro ⟨j, hj, he⟩
    simp only [Prod.mk.injEq] at he
    refine ⟨j, hj, by rw [← he.1, pairsOf_getElem 0], ?_⟩
    rw [← he.2]
    simp [List.getD_eq_getElem?_getD, show j < hs.length by omega]
  · rintro ⟨j, hj, rfl, rfl⟩
    refine ⟨j, hj, ?_⟩
    rw [pairsOf_getElem 0]
    simp [List.getD_eq_getElem?_getD, show j < hs.length by omega]

theorem pairsOf_between {l : List ℝ} {a b : ℝ} (h : ∀ r ∈ l, a < r ∧ r < b) (hab : a ≤ b) {g : ℝ × ℝ} (hg : g ∈ pairsOf (a :: l ++ [b])) :
    a ≤ g.1 ∧ g.2 ≤ b := by
  have := mem_pairsOf hg
  have hall : ∀ r ∈ a :: l ++ [b], a ≤ r ∧ r ≤ b := by
    intro r hr
    simp only [List.cons_append, List.mem_cons, List.mem_append, List.not_mem_nil, or_false] at hr
    rcases hr with rfl | hr | rfl
    · exact ⟨le_rfl, hab⟩
    · exact ⟨(h r hr).1.le, (h r hr).2.le⟩
    · exact ⟨hab, le_rfl⟩
  exact ⟨(hall _ this.1).1, (hall _ this.2).2⟩

theorem mem_zip_of_right {α β : Type} {l : List α} {l' : List β} (h : l'.length ≤ l.length) {b : β} (hb : b ∈ l') : ∃ a, (a, b) ∈ l.zip l' := by
  obtain ⟨i, hi, rfl⟩ := List.mem_iff_getElem.1 hb
  refine ⟨l[i], ?_⟩
  rw [List.mem_iff_getElem]
  exact ⟨i, by simp; omega, by simp⟩

variable {minX H : ℝ} {ue : Option ℝ} {hit' : Option (List Bool)} {n k : ℕ} {hs hs' : List Bool} {R : ℕ → List ℝ × Option (List Bool)}

theorem GapFill.flags_refine (h : GapFill n k t x newT minX ue (some H) (some hs) t' x' (some hs') R) (ht : t.Pairwise (· < ·))
    (hl : hs.length = t.length - 1) : FlagsRefine t hs t' hs' := by
  have h1 : hs' = (List.range (t.length - 1)).flatMap fun j : ℕ => gapFlags (gapTimes t newT j).length (hs.getD j false) (R j).2 := by
    simpa using h.flag
  have hlen : ∀ j < t.length - 1, (gapFlags (gapTimes t newT j).length (hs.getD j false) (R j).2).length = (gapTimes t newT j).length + 1 := by
    intro j hj
    by_cases hf : hs.getD j false = true
    · exact (h.with_hit rfl rfl hj hf).2.2
    · rw [h.no_hit rfl hj (by simpa using hf)]
      simp
  have hz := (flags_zip (τ := fun j => t.getD j 0) hlen).1
  have hfg : flaggedGaps t' hs' = (List.range (t.length - 1)).flatMap fun j : ℕ =>
      (pairsOf (t.getD j 0 :: gapTimes t newT j ++ [t.getD (j + 1) 0])).zip (gapFlags (gapTimes t newT j).length (hs.getD j false) (R j).2) := by
    unfold flaggedGaps
    rw [h.time_chain, h1]
    exact hz
  have hbt : ∀ j < t.length - 1, ∀ g ∈ pairsOf (t.getD j 0 :: gapTimes t newT j ++ [t.getD (j + 1) 0]), t.getD j 0 ≤ g.1 ∧ g.2 ≤ t.getD (j + 1) 0 :=
    fun j hj g hg => pairsOf_between (fun r hr => (mem_gapTimes.1 hr).2) (getD_sorted ht hj).le hg
  constructor
  · intro g' hg'
    rw [hfg, List.mem_flatMap] at hg'
    obtain ⟨j, hj, hg'⟩ := hg'
    rw [List.mem_range] at hj
    refine ⟨(t.getD j 0, t.getD (j + 1) 0), (mem_flaggedGaps hl).2 ⟨j, hj, rfl, ?_⟩, hbt j hj g' (List.of_mem_zip hg').1⟩
    by_contra hf
    have := (List.of_mem_zip hg').2
    rw [h.no_hit rfl hj (by simpa using hf)] at this
    simp at this
  · intro g hg
    obtain ⟨j, hj, rfl, hf⟩ := (mem_flaggedGaps hl).1 hg
    have h2 := (h.with_hit rfl rfl hj hf).1
    obtain ⟨g', hg'⟩ := mem_zip_of_right (l := pairsOf (t.getD j 0 :: gapTimes t newT j ++ [t.getD (j + 1) 0]))
      (by rw [hlen j hj, pairsOf_length]; simp) h2
    refine ⟨g', ?_, hbt j hj g' (List.of_mem_zip hg').1⟩
    rw [hfg, List.mem_flatMap]
    exact ⟨j, List.mem_range.2 hj, hg'⟩

theorem flaggedGaps_flip (hl : hs.length = t.length - 1) {g : ℝ × ℝ} {b : Bool} :
    (g, b) ∈ flaggedGaps (flipList f t) hs.reverse ↔ ((f - g.2, f - g.1), b) ∈ flaggedGaps t hs := by
  unfold flaggedGaps flipList
  rw [pairsOf_map, pairsOf_reverse, List.zip_map_left, List.zip_map_left, zip_reverse_eq (by rw [pairsOf_length, hl])]
  generalize (pairsOf t).zip hs = Z
  rcases g with ⟨u, w⟩
  constructor
  · intro h
    simp only [List.mem_map, List.mem_reverse] at h
    obtain ⟨_, ⟨⟨⟨a, a'⟩, b'⟩, hm, rfl⟩, e⟩ := h
    simp only [Prod.map, Prod.swap, Prod.mk.injEq, id] at e
    obtain ⟨⟨rfl, rfl⟩, rfl⟩ := e
    simpa using hm
  · intro h
    simp only [List.mem_map, List.mem_reverse]
    exact ⟨_, ⟨_, h, rfl⟩, by simp⟩

theorem flagsRefine_flip (hl : hs.length = t.length - 1) (hl' : hs'.length = t'.length - 1)
    (h : FlagsRefine (flipList f t) hs.reverse t' hs') : FlagsRefine t hs (flipList f t') hs'.reverse := by
  constructor
  · rintro ⟨u, w⟩ hg
    rw [flaggedGaps_flip hl'] at hg
    obtain ⟨⟨a, b⟩, h1, h2, h3⟩ := h.1 _ hg
    rw [flaggedGaps_flip hl] at h1
    exact ⟨_, h1, by simp at *; linarith, by simp at *; linarith⟩
  · rintro ⟨u, w⟩ hg
    obtain ⟨⟨a, b⟩, h1, h2, h3⟩ := h.2 (f - w, f - u) (by rw [flaggedGaps_flip hl]; simpa using hg)
    refine ⟨(f - b, f - a), by rw [flaggedGaps_flip hl']; simpa using h1, ?_, ?_⟩ <;> simp at * <;> linarith

theorem within_flip (h : (flipWith f c s).Within) : s.Within := by
  obtain ⟨h1, h2⟩ := h
  simp only [flipWith, mem_flipList] at h1 h2
  have key : ∀ v ∈ s.x, 2 * c - (2 * c - v) ∈ s.x := fun v hv => by simpa using hv
  constructor
  · intro hlt v hv
    have := h2 (by linarith) (2 * c - v) (key v hv)
    exact ⟨by linarith, by linarith⟩
  · intro hlt v hv
    by_cases h3 : s.loose < s.tight
    · have := h1 (by linarith) (2 * c - v) (key v hv)
      exact ⟨by linarith, by linarith⟩
    · have := h2 (by linarith) (2 * c - v) (key v hv)
      exact ⟨by linarith, by linarith⟩

theorem flagsSound_flip (h : s.FlagsSound) (hn : s.tight ≠ s.loose) : (flipWith f c s).FlagsSound := by
  intro hs hh
  simp only [flipWith, Option.map_eq_some_iff] at hh
  obtain ⟨hs, h0, rfl⟩ := hh
  obtain ⟨h1, h2⟩ := h hs h0
  simp only [flipWith, flipList]
  rw [pairsOf_map, pairsOf_reverse]
  simp only [List.forall₂_map_right_iff, List.forall₂_reverse_iff, Prod.map, Prod.swap]
  constructor
  · intro hlt
    refine (h2 (by linarith)).imp ?_
    intro a b hab ha
    exact ⟨by linarith [(hab ha).2], by linarith [(hab ha).1]⟩
  · intro hlt
    refine (h1 (lt_of_le_of_ne (by linarith) hn)).imp ?_
    intro a b hab ha
    exact ⟨by linarith [(hab ha).2], by linarith [(hab ha).1]⟩

/-! ## One interpolation step -/

/-- Everything said about one interpolation step. -/
structure SkelStep (s : EaSkel) (newT : List ℝ) (s' : EaSkel) (vals : List ℝ) : Prop where
  refines : Refines s.t s.x newT s'.t s'.x vals
  tight : s'.tight = s.tight
  loose : s'.loose = s.loose
  hitX : s'.hitX = s.hitX
  order : s.tight ≠ s.loose
  valid : s'.Valid
  last : s'.t.getLast? = s.t.getLast?
  xfirst : s'.x.head? = s.x.head?
  xlast : s'.x.getLast? = s.x.getLast?
  within : s'.Within
  known : (∀ r ∈ newT, r ∈ s.t) → s'.t = s.t ∧ s'.x = s.x ∧ s'.hitI = none
  noFlags : s.hitI = none → s'.hitI = none
  flags : (∃ r ∈ newT, r ∉ s.t) → ∀ hs, s.hitI = some hs → ∃ hs', s'.hitI = some hs' ∧ FlagsRefine s.t hs s'.t hs'
  sound : s.FlagsSound → s'.FlagsSound

theorem step_flip {s' : EaSkel} (hv : s.Valid) (hf : s.t.getLast? = some f)
    (h : SkelStep (flipWith f c s) (flipList f newT) s' vals) : SkelStep s newT (flipWith f c s') (flipList (2 * c) vals) := by
  have hl : s'.t.getLast? = some f := by rw [h.last, (flipWith_valid hv hf c).2]
  have hv' := flipWith_valid h.valid hl c
  refine ⟨refines_flip hv.len h.refines, ?_, ?_, ?_, ?_, hv'.1, ?_, ?_, ?_, ?_, ?_, ?_, ?_, ?_⟩
  · simp [flipWith, h.tight]
  · simp [flipWith, h.loose]
  · simp [flipWith, h.hitX]
  · intro he
    exact h.order (by simp [flipWith, he])
  · rw [hv'.2, hf]
  · have := h.xlast
    simp only [flipWith, flipList_head, flipList_last] at this ⊢
    rw [this]
    cases s.x.head? <;> simp
  · have := h.xfirst
    simp only [flipWith, flipList_head, flipList_last] at this ⊢
    rw [this]
    cases s.x.getLast? <;> simp
  · apply within_flip (f := f) (c := c)
    rw [flipWith_flip]
    exact h.within
  · intro hk
    obtain ⟨h1, h2, h3⟩ := h.known (by
      intro r hr
      rw [mem_flipList] at hr
      simp only [flipWith, mem_flipList]
      exact hk _ hr)
    simp only [flipWith] at h1 h2 h3 ⊢
    rw [h1, h2, h3, flipList_flip, flipList_flip]
    simp
  · intro hn
    have := h.noFlags (by simp [flipWith, hn])
    simp [flipWith, this]
  · rintro ⟨r, hr, hr'⟩ hs hh
    obtain ⟨hs', h1, h2⟩ := h.flags ⟨f - r, by rw [mem_flipList]; simpa using hr, by simp only [flipWith, mem_flipList]; simpa using hr'⟩
      hs.reverse (by simp [flipWith, hh])
    refine ⟨hs'.reverse, by simp [flipWith, h1], ?_⟩
    exact flagsRefine_flip (hv.flags hs hh) (h.valid.flags hs' h1) h2
  · intro hsnd
    have hne : s.tight ≠ s.loose := by
      intro he
      exact h.order (by simp [flipWith, he])
    apply flagsSound_flip (h.sound (flagsSound_flip hsnd hne))
    rw [h.tight, h.loose]
    exact h.order

theorem chainOf_head {α : Type} (τ : ℕ → α) (N : ℕ → List α) (G : ℕ) : (chainOf τ N G).head? = some (τ 0) := rfl

theorem chainOf_getLast {α : Type} (τ : ℕ → α) (N : ℕ → List α) (G : ℕ) : (chainOf τ N G).getLast? = some (τ G) := by
  obtain ⟨l, hl⟩ := chainOf_last τ N G
  rw [hl]
  simp

theorem head_getD {l : List ℝ} (h : l ≠ []) : l.head? = some (l.getD 0 0) := by
  cases l with
  | nil => exact absurd rfl h
  | cons a l => simp

theorem last_getD {l : List ℝ} (h : l ≠ []) : l.getLast? = some (l.getD (l.length - 1) 0) := by
  have h0 := List.length_pos_iff.2 h
  rw [List.getLast?_eq_getElem?, List.getD_eq_getElem?_getD, List.getElem?_eq_getElem (by omega)]
  simp

theorem step_std {idx : List ℕ} (hv : s.Valid) (hN : newT.Pairwise (· < ·))
    (h : (fillOuter n k s.t s.x newT s.tight (some s.loose) (some s.hitX) s.hitI).Out (.ok (t', x', idx, hit'))) :
    SkelStep s newT ⟨t', x', s.tight, s.loose, s.hitX, hit'⟩ (idx.map fun i => x'.getD i 0) ∧ idx = whereIn t' newT := by
  obtain ⟨hr, hb⟩ := fillOuter_refines hv.sorted hv.len hN hv.flags h
  obtain ⟨hidx, ht0, hN0, hpos, hmH, hHU, hb0, hc⟩ := fillOuter_out hv.sorted hv.len hN hv.flags h
  have hx0 : s.x ≠ [] := by rw [← List.length_pos_iff, hv.len]; exact List.length_pos_iff.2 ht0
  have hlt : s.tight < s.loose := hmH.trans hHU
  have hw : EaSkel.Within ⟨t', x', s.tight, s.loose, s.hitX, hit'⟩ := ⟨fun _ => hb, fun hn => absurd hlt hn⟩
  refine ⟨?_, hidx⟩
  rcases hc with ⟨hp, rfl, rfl, rfl⟩ | ⟨⟨r, hr1, hr2⟩, ⟨R, hG⟩, hin⟩
  · exact ⟨hr, rfl, rfl, rfl, hlt.ne, ⟨hv.sorted, hv.start, hv.len, fun _ h => by cases h⟩, rfl, rfl, rfl, hw, fun _ => ⟨rfl, rfl, rfl⟩,
      fun _ => rfl, fun ⟨r, h1, h2⟩ => absurd (hp r h1) h2, fun _ _ h => by cases h⟩
  · have eflag := hG.flag
    refine ⟨hr, rfl, rfl, rfl, hlt.ne, ⟨hr.sorted, ?_, hr.len, ?_⟩, ?_, ?_, ?_, hw, fun hk => absurd (hk r hr1) hr2, ?_, ?_, ?_⟩
    · show t'.head? = _
      rw [hG.time_chain, chainOf_head, ← head_getD ht0, hv.start]
    · intro hs' hh'
      have hh2 : hit' = some hs' := hh'
      cases hI : s.hitI with
      | none => rw [hI, hh2] at eflag; simp at eflag
      | some hs => exact hG.flags_len hI rfl hh2
    · show t'.getLast? = _
      rw [hG.time_chain, chainOf_getLast, ← last_getD ht0]
    · show x'.head? = _
      rw [hG.value_chain, chainOf_head, ← head_getD hx0]
    · show x'.getLast? = _
      rw [hG.value_chain, chainOf_getLast, last_getD hx0, hv.len]
    · intro hI
      rw [hI] at eflag
      simpa using eflag
    · intro _ hs hI
      rw [hI] at eflag hG
      simp only [Option.map_some] at eflag
      exact ⟨_, eflag, by subst eflag; exact hG.flags_refine hv.sorted (hv.flags hs hI)⟩
    · intro hsnd hs' hh'
      have hh2 : hit' = some hs' := hh'
      cases hI : s.hitI with
      | none => rw [hI, hh2] at eflag; simp at eflag
      | some hs =>
        refine ⟨fun _ => ?_, fun hn => absurd hlt hn⟩
        exact hG.flags_below hI rfl hh2 hv.len ht0 ((hsnd hs hI).1 hlt)

/-- `interpolate_skeleton`. -/
theorem interpolateSkel_out {s' : EaSkel} (hv : s.Valid) (hN : newT.Pairwise (· < ·)) (h0 : newT ≠ [])
    (h : (interpolateSkel n k s newT).Out (.ok (s', vals))) : SkelStep s newT s' vals := by
  simp only [interpolateSkel] at h
  rw [if_neg h0] at h
  by_cases hlt : s.tight < s.loose
  · rw [if_pos hlt, Prog.out_bind_ok] at h
    obtain ⟨⟨t', x', idx, hit'⟩, h1, h2⟩ := h
    rw [Prog.out_ret] at h2
    simp only [Except.ok.injEq, Prod.mk.injEq] at h2
    obtain ⟨rfl, rfl⟩ := h2
    exact (step_std hv hN h1).1
  · rw [if_neg hlt] at h
    obtain ⟨f, x0, x1, hf, hx0, hx1, hf0, hr, he⟩ := flipSkel_eq hv
    rw [he, hf] at h
    rw [Prog.out_bind_ok] at h
    obtain ⟨s1, h1, h⟩ := h
    rw [Prog.out_lift] at h1
    simp only [Except.ok.injEq] at h1
    subst h1
    simp only [] at h
    rw [Prog.out_bind_ok] at h
    obtain ⟨q, h1, h⟩ := h
    rw [Prog.out_lift] at h1
    unfold reversePath at h1
    split_ifs at h1
    simp only [Except.ok.injEq] at h1
    subst h1
    rw [Prog.out_bind_ok] at h
    obtain ⟨⟨t', x', idx, hit'⟩, h1, h⟩ := h
    have hv1 := flipWith_valid hv hf ((x0 + x1) / 2)
    obtain ⟨hst, hidx⟩ := step_std hv1.1 (flipList_sorted (f := f) hN) h1
    have hfin := step_flip hv hf hst
    rw [Prog.out_bind_ok] at h
    obtain ⟨s2, h2, h⟩ := h
    rw [Prog.out_lift] at h2
    obtain ⟨f', y0, y1, hf', hy0, hy1, -, -, he'⟩ := flipSkel_eq hst.valid
    rw [he'] at h2
    simp only [Except.ok.injEq] at h2
    have ef : f' = f := by
      rw [hst.last, hv1.2] at hf'
      exact (Option.some.inj hf').symm
    have e0 : y0 = 2 * ((x0 + x1) / 2) - x1 := by
      rw [hst.xfirst] at hy0
      simp only [flipWith, flipList_head, hx1, Option.map_some, Option.some.injEq] at hy0
      exact hy0.symm
    have e1 : y1 = 2 * ((x0 + x1) / 2) - x0 := by
      rw [hst.xlast] at hy1
      simp only [flipWith, flipList_last, hx0, Option.map_some, Option.some.injEq] at hy1
      exact hy1.symm
    have ec : (y0 + y1) / 2 = (x0 + x1) / 2 := by rw [e0, e1]; ring
    rw [ef, ec] at h2
    rw [Prog.out_ret] at h
    simp only [Except.ok.injEq, Prod.mk.injEq] at h
    obtain ⟨rfl, rfl⟩ := h
    rw [h2]
    convert hfin using 1
    simp only [flipWith, flipList]
    simp only [List.map_reverse, List.map_map]
    congr 1
    apply List.map_congr_left
    intro i hi
    have hil : i < t'.length := by
      rw [hidx] at hi
      simpa using (List.mem_filter.1 hi).1
    have hlx : x'.length = t'.length := hst.valid.len
    simp only [Function.comp]
    rw [List.getD_eq_getElem _ _ (by simp; omega), List.getD_eq_getElem _ _ (by omega)]
    simp only [List.getElem_reverse, List.getElem_map, List.length_map]
    congr 2
    omega

end Ctb
