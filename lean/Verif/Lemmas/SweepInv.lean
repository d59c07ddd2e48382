import Verif.Spec.Sweep
import Verif.Props.SwitchParams
import Verif.Props.SwitchHidden
import Verif.Props.GenGibbs
import Verif.Lemmas.RwLaw
import Verif.Lemmas.ASure

set_option linter.unusedSectionVars false

namespace Ctb

variable {ζ : Type} {p : ℕ}

/-! ## Samplers -/

theorem lastOf_sched {A : AdaptPar} {m k : ℕ} {s : Schedule} (hs : SchedInv A m k s) : ∃ sc, lastOf s.logScale = .ok sc := by
  have h1 := hs.scale; have h2 := hs.pos
  obtain ⟨l, a, hl⟩ := List.eq_nil_or_concat s.logScale |>.resolve_left (by
    intro h; rw [h] at h1; simp at h1; omega)
  exact ⟨a, by rw [hl, List.concat_eq_append, lastOf_append]⟩

/-- A sampler in step, with its schedule. -/
structure SamplerInv (A : AdaptPar) (lb ub : Fin p → Option ℝ) (row : Fin p → ℝ) (s : MvRw p) : Prop where
  ok : SamplerOk lb ub row s
  sched : ∃ m k, SchedInv A m k s.sched

theorem samplerInv_init (A : AdaptPar) (lb ub : Fin p → Option ℝ) (row : Fin p → ℝ) : SamplerInv A lb ub row (.init A row lb ub) :=
  ⟨⟨rfl, rfl, rfl, Matrix.PosDef.one, Matrix.PosDef.one⟩, 1, 0, SchedInv.init _ _⟩

/-- Adapting to an admissible row succeeds and leaves the sampler in step with that row. -/
theorem samplerInv_adapt {A : AdaptPar} {lb ub : Fin p → Option ℝ} {row : Fin p → ℝ} {s : MvRw p} (hs : SamplerInv A lb ub row s) {x : Fin p → ℝ}
    (hx : ∀ j, Admissible (x j) (lb j) (ub j)) (b : ℝ) : ∃ s', s.adapt A x b = .ok s' ∧ SamplerInv A lb ub x s' := by
  obtain ⟨⟨-, hl, hu, hc, hp⟩, m, k, hsc⟩ := hs
  choose y j hy _ using fun i => toReals_ok (hx i)
  have hy' : ∀ i, transformToReals (x i) (s.lb i) (s.ub i) = .ok (y i, j i) := by rw [hl, hu]; exact hy
  obtain ⟨sc, h1, h2, h3⟩ := hsc.step true b
  obtain ⟨C, hC, hC'⟩ := mvAdapt_eq (P := A) b hy' h1
  have hpd : (seqUpdateNormal y (1 + s.sched.empProb.length) s.mean s.cov).2.PosDef := by
    apply seqUpdate_posDef hc
    rw [hsc.emp]; push_cast
    have : (0 : ℝ) ≤ k := Nat.cast_nonneg _
    linarith
  refine ⟨_, hC, ⟨rfl, hl, hu, hpd, ?_⟩, ?_⟩
  · simp only [hC']
    split_ifs
    · exact hpd
    · exact hp
  · rcases h3 with ⟨-, h4, -⟩ | ⟨-, h4, -⟩
    · exact ⟨_, _, h4⟩
    · exact ⟨_, _, h4⟩

/-- Proposals of a sampler are admissible. -/
theorem propose_admissible {root : Matrix (Fin p) (Fin p) ℝ → Matrix (Fin p) (Fin p) ℝ} {s : MvRw p} {q : (Fin p → ℝ) × ℝ × ℝ}
    (ho : (s.propose root).Out (.ok q)) (j : Fin p) : Admissible (q.1 j) (s.lb j) (s.ub j) := by
  unfold MvRw.propose at ho
  simp only [Prog.out_bind_ok, Prog.out_ret, Except.ok.injEq] at ho
  obtain ⟨r, -, sc, -, z, -, rfl⟩ := ho
  exact toConst_admissible _ _ _

/-- Proposing from a sampler in step raises nothing. -/
theorem propose_no_error {root : Matrix (Fin p) (Fin p) ℝ → Matrix (Fin p) (Fin p) ℝ} {A : AdaptPar} {lb ub : Fin p → Option ℝ} {row : Fin p → ℝ} {s : MvRw p}
    (hs : SamplerInv A lb ub row s) (hx : ∀ j, Admissible (row j) (lb j) (ub j)) {e : PyErr} : ¬ (s.propose root).Out (.error e) := by
  obtain ⟨⟨hr, hl, hu, -, -⟩, m, k, hsc⟩ := hs
  obtain ⟨sc, hsc⟩ := lastOf_sched hsc
  choose y j hy _ using fun i => toReals_ok (hx i)
  have h1 : (allOk fun i => transformToReals (s.state i) (s.lb i) (s.ub i)) = .ok fun i => (y i, j i) :=
    allOk_ok.2 (by rw [hr, hl, hu]; exact hy)
  unfold MvRw.propose
  simp only [h1, hsc, Prog.lift, Prog.ret_bind]
  rw [Prog.out_bind_error]
  rintro (h | ⟨z, -, h⟩)
  · obtain ⟨z, hz⟩ := drawNormals_out.1 h; cases hz
  · simp at h

/-! ## Errors of a section -/

theorem jointLoop_error {σ τ : Type} {v1 prk : ℝ} {c : SideCoin σ τ} (I : σ → Prop) (h1 : ∀ s up x, I s → (c s up).Out (.ok x) → I x.2.2) :
    ∀ n s (e : PyErr), I s → (twocoinJointLoop v1 c prk n s).Out (.error e) → e = .budget ∨ ∃ s up, I s ∧ (c s up).Out (.error e) := by
  classical
  intro n
  induction n with
  | zero => intro s e _ h; simp only [twocoinJointLoop, Prog.out_err, Except.error.injEq] at h; exact .inl h
  | succ n ih =>
    intro s e hI h
    unfold twocoinJointLoop at h
    simp only [Prog.out_real] at h
    obtain ⟨u, -, h⟩ := h
    have key : ∀ (up b1 : Bool), ((c s up).bind fun r => if r.1 then Prog.ret ((b1, false, r.2.1), r.2.2)
      else .real (.uniform 0 1) fun u' =>
        if u' < prk then .ret ((false, true, r.2.1), r.2.2) else twocoinJointLoop v1 c prk n r.2.2).Out (.error e) →
        e = .budget ∨ ∃ s up, I s ∧ (c s up).Out (.error e) := by
      intro up b1 h
      rw [Prog.out_bind_error] at h
      rcases h with h | ⟨x, hx, h⟩
      · exact .inr ⟨s, up, hI, h⟩
      · split_ifs at h
        · simp at h
        · simp only [Prog.out_real] at h
          obtain ⟨u', -, h⟩ := h
          split_ifs at h
          · simp at h
          · exact ih _ _ (h1 s up x hI hx) h
    split_ifs at h
    · exact key true true h
    · exact key false false h

theorem decideParam_error {τ : Type} {C : McmcControls} {wPre wFull : ℝ × ℝ} {z : τ} {c : SideCoin τ τ} (Q : τ → Prop) (h0 : Q z)
    (h1 : ∀ s up x, Q s → (c s up).Out (.ok x) → Q x.2.2) {e : PyErr} (ho : (decideParam C wPre wFull z c).Out (.error e)) :
    e = .budget ∨ ∃ s up, Q s ∧ (c s up).Out (.error e) := by
  have key : ∀ w1 w2 : ℝ, ((sampleTwocoinJoint w1 w2 (.ret z) c C.prPortkey C.maxProps).bind fun v =>
      Prog.ret (v.1.1, v.1.2.2)).Out (.error e) → e = .budget ∨ ∃ s up, Q s ∧ (c s up).Out (.error e) := by
    intro w1 w2 h
    rw [Prog.out_bind_error] at h
    rcases h with h | ⟨x, -, h⟩
    · exact jointLoop_error Q h1 _ _ _ h0 h
    · simp at h
  unfold decideParam at ho
  split_ifs at ho
  · rw [Prog.out_bind_error] at ho
    rcases ho with h | ⟨b, -, ho⟩
    · simp [flipPrecoin] at h
    · split_ifs at ho
      · exact key _ _ ho
      · simp at ho
  · exact key _ _ ho

theorem paramSection_error {C : McmcControls} {O : ParamOps p ζ} {nil : Thi p} {z : List ζ} {h : Anchorage ℝ ℝ} (hv : h.Valid)
    (hz : z.length + 1 = h.t.length) {prop : Prog ((Fin p → ℝ) × ℝ × ℝ)} {i : ℕ} {e : PyErr}
    (ho : (updateParamsSection C O nil z h prop i).Out (.error e)) :
    prop.Out (.error e) ∨ e = .budget ∨ ∃ prime seg x up, (O.flip nil prime seg x up).Out (.error e) := by
  unfold updateParamsSection at ho
  rw [Prog.out_bind_error] at ho
  rcases ho with h | ⟨q, -, ho⟩
  · exact .inl h
  right
  simp only at ho
  rw [Prog.out_bind_error] at ho
  rcases ho with ho | ⟨v, -, ho⟩
  swap
  · simp at ho
  rcases decideParam_error (fun s : List ζ => s.length = z.length) rfl (by
    intro s up x hs hx
    rw [Prog.out_bind_ok] at hx
    obtain ⟨⟨b', s'⟩, hf, hx⟩ := hx
    simp only [Prog.out_ret, Except.ok.injEq] at hx
    subst hx
    exact (flipParam_out hv (by rw [hs]; exact hz) hf).1.trans hs) ho with h | ⟨s, up, hs, h⟩
  · exact .inl h
  · right
    rw [Prog.out_bind_error] at h
    rcases h with h | ⟨x, -, h⟩
    · obtain ⟨seg, x, hx⟩ := flipParam_error hv (by rw [hs]; exact hz) h
      exact ⟨_, seg, x, up, hx⟩
    · simp at h

/-! ## The parameter update -/

theorem updateParams_rest {root : Matrix (Fin p) (Fin p) ℝ → Matrix (Fin p) (Fin p) ℝ} {A : AdaptPar} {C : McmcControls}
    {O : ParamOps p ζ} {nil : Thi p} {z : List ζ} {h : Anchorage ℝ ℝ} {ss ss' : List (MvRw p)} {thi : Thi p} {z' : List ζ}
    (ho : (updateParams root A C O h nil z ss).Out (.ok (thi, z', ss'))) {i : ℕ} (hi : ss.length ≤ i) : thi i = nil i := by
  unfold updateParams at ho
  rw [Prog.out_bind_ok] at ho
  obtain ⟨part, hpart, ho⟩ := ho
  split_ifs at ho with he
  · simp at ho
  rw [Prog.out_bind_ok] at ho
  obtain ⟨zz, hzz, ho⟩ := ho
  rw [Prog.out_bind_ok] at ho
  obtain ⟨s1, hs1, ho⟩ := ho
  simp only [Prog.out_ret, Except.ok.injEq, Prod.mk.injEq] at ho
  obtain ⟨rfl, rfl, rfl⟩ := ho
  rw [Prog.out_mapM'_ok] at hpart
  have hlen := hpart.length_eq
  rw [List.length_zipIdx] at hlen
  simp [diagRows, List.getElem?_eq_none (show part.length ≤ i by omega)]

/-- What the parameter update preserves. -/
theorem updateParams_inv {root : Matrix (Fin p) (Fin p) ℝ → Matrix (Fin p) (Fin p) ℝ} {A : AdaptPar} {C : McmcControls}
    {O : ParamOps p ζ} {nil : Thi p} {z : List ζ} {h : Anchorage ℝ ℝ} (hv : h.Valid) (hz : z.length + 1 = h.t.length)
    {lb ub : Fin p → Option ℝ} (hr : ∀ y j, Admissible (nil y j) (lb j) (ub j)) {ss : List (MvRw p)}
    (hs : ∀ i q, ss[i]? = some q → SamplerInv A lb ub (nil i) q) {ss' : List (MvRw p)} {thi : Thi p} {z' : List ζ}
    (ho : (updateParams root A C O h nil z ss).Out (.ok (thi, z', ss'))) :
    z'.length = z.length ∧ ss'.length = ss.length ∧ (∀ y j, Admissible (thi y j) (lb j) (ub j)) ∧
      ∀ i q, ss'[i]? = some q → SamplerInv A lb ub (thi i) q := by
  obtain ⟨h1, h2, row, acc, h3, -⟩ := C25_update hv hz ho
  have hadm : ∀ y j, Admissible (thi y j) (lb j) (ub j) := by
    intro y
    by_cases hy : y < ss.length
    · obtain ⟨⟨q, hq, hqr⟩, hrow, -⟩ := h3 y ss[y] (List.getElem?_eq_getElem hy)
      have hi := hs y ss[y] (List.getElem?_eq_getElem hy)
      rw [hrow]
      split_ifs
      · intro j
        have := propose_admissible hq j
        rwa [hqr, hi.ok.lb_eq, hi.ok.ub_eq] at this
      · exact hr y
    · rw [updateParams_rest ho (by omega)]; exact hr y
  refine ⟨h1, h2, hadm, ?_⟩
  intro i q hq
  have hil : i < ss.length := by have := (List.getElem?_eq_some_iff.1 hq).1; omega
  obtain ⟨-, -, s', hs', ha⟩ := h3 i ss[i] (List.getElem?_eq_getElem hil)
  rw [hq, Option.some.injEq] at hs'
  subst hs'
  obtain ⟨s'', e1, e2⟩ := samplerInv_adapt (hs i _ (List.getElem?_eq_getElem hil)) (hadm i) (if acc i then 1 else 0)
  rw [ha] at e1
  cases e1
  exact e2

theorem adaptAll_total {A : AdaptPar} {thi : Thi p} {acc : List Bool} : ∀ {ss : List (MvRw p)} {i : ℕ}, i + ss.length ≤ acc.length →
    (∀ (k : ℕ) (q : MvRw p) (b : ℝ), ss[k]? = some q → ∃ s', q.adapt A (thi (i + k)) b = .ok s') → ∃ ss', adaptAll A thi acc i ss = .ok ss'
  | [], i, _, _ => ⟨[], rfl⟩
  | s :: ss, i, hl, h => by
    have hi : i < acc.length := by simp at hl; omega
    obtain ⟨s', h1⟩ := h 0 s (if acc[i] then 1 else 0) rfl
    obtain ⟨l, h2⟩ := adaptAll_total (A := A) (thi := thi) (acc := acc) (ss := ss) (i := i + 1) (by simp at hl; omega) (fun k q b hq => by
      have := h (k + 1) q b (by simpa using hq)
      rwa [show i + (k + 1) = i + 1 + k by omega] at this)
    refine ⟨s' :: l, ?_⟩
    simp only [adaptAll, List.getElem?_eq_getElem hi]
    rw [Nat.add_zero] at h1
    rw [h1]
    simp [Except.bind, h2]

theorem updateParams_err {root : Matrix (Fin p) (Fin p) ℝ → Matrix (Fin p) (Fin p) ℝ} {A : AdaptPar} {C : McmcControls}
    {O : ParamOps p ζ} {nil : Thi p} {z : List ζ} {h : Anchorage ℝ ℝ} (hv : h.Valid) (hz : z.length + 1 = h.t.length)
    {lb ub : Fin p → Option ℝ} (hr : ∀ y j, Admissible (nil y j) (lb j) (ub j)) {ss : List (MvRw p)}
    (hs : ∀ i q, ss[i]? = some q → SamplerInv A lb ub (nil i) q) (hy : ∀ y ∈ h.yt, y < ss.length) {e : PyErr}
    (ho : (updateParams root A C O h nil z ss).Out (.error e)) :
    e = .budget ∨ ∃ nil prime seg x up, (O.flip nil prime seg x up).Out (.error e) := by
  unfold updateParams at ho
  rw [Prog.out_bind] at ho
  rcases ho with ⟨part, hpart, ho⟩ | ⟨e', he, h'⟩
  · exfalso
    rw [Prog.out_mapM'_ok] at hpart
    have hlen := hpart.length_eq
    rw [List.length_zipIdx] at hlen
    have h2 := hv.two
    have hne : part.isEmpty = false := by
      rw [List.isEmpty_eq_false_iff, ← List.length_pos_iff, ← hlen]
      have : 0 < h.yt.length := by rw [hv.leny]; omega
      exact Nat.zero_lt_of_lt (hy h.yt[0] (List.getElem_mem this))
    simp only [hne, Bool.false_eq_true, if_false] at ho
    have hsec : ∀ (i : ℕ) (hi : i < part.length), ∃ (s : MvRw p) (q : (Fin p → ℝ) × ℝ × ℝ), ss[i]? = some s ∧ (s.propose root).Out (.ok q) ∧
        SectionResult O h nil z i q.1 part[i].1 part[i].2.1 part[i].2.2 := by
      intro i hi
      have hi' : i < ss.zipIdx.length := by rw [List.length_zipIdx]; omega
      have hf := hpart.get hi' hi
      simp only [List.get_eq_getElem, List.getElem_zipIdx, Nat.zero_add] at hf
      obtain ⟨q, hq, hr⟩ := paramSection_out hv hz hf
      exact ⟨_, q, List.getElem?_eq_getElem (by omega), hq, hr⟩
    obtain ⟨l, hl⟩ := pickSeeds_total (zp := part.map fun a => a.2.2) (ys := h.yt.dropLast) (i := 0)
      (fun y hy' => by rw [List.length_map, ← hlen]; exact hy y (List.dropLast_subset _ hy'))
      (by
        intro zs hzs
        rw [List.mem_map] at hzs
        obtain ⟨a, ha, rfl⟩ := hzs
        obtain ⟨i, hi, rfl⟩ := List.mem_iff_getElem.1 ha
        obtain ⟨s, q, -, -, hr⟩ := hsec i hi
        have hlen' : part[i].2.2.length = z.length := hr.len
        rw [hlen', List.length_dropLast, hv.leny]; omega)
    rw [hl] at ho
    simp only [Prog.lift, Prog.ret_bind] at ho
    obtain ⟨ss', ha⟩ := adaptAll_total (A := A) (thi := diagRows nil (part.map fun a => a.2.1)) (acc := part.map fun a => a.1) (ss := ss) (i := 0)
      (by rw [List.length_map]; omega) (by
        intro k q b hq
        have hk : k < part.length := by have := (List.getElem?_eq_some_iff.1 hq).1; omega
        obtain ⟨s, q', hs', hq', hr'⟩ := hsec k hk
        rw [hq, Option.some.injEq] at hs'
        subst hs'
        have hi := hs k q hq
        have hdi : diagRows nil (part.map fun a => a.2.1) k = part[k].2.1 k := by simp [diagRows, List.getElem?_eq_getElem hk]
        obtain ⟨s', h1, -⟩ := samplerInv_adapt hi (x := part[k].2.1 k) (by
          rw [hr'.own]
          split_ifs
          · intro j
            have := propose_admissible hq' j
            rwa [hi.ok.lb_eq, hi.ok.ub_eq] at this
          · exact hr k) b
        exact ⟨s', by rw [Nat.zero_add, hdi]; exact h1⟩)
    rw [ha] at ho; simp at ho
  · simp only [Except.error.injEq] at h'; subst h'
    obtain ⟨q, hq, he⟩ := mapM'_error he
    obtain ⟨i, hi, rfl⟩ := List.mem_iff_getElem.1 hq
    rw [List.length_zipIdx] at hi
    simp only [List.getElem_zipIdx, Nat.zero_add] at he
    rcases paramSection_error hv hz he with h | h | ⟨prime, seg, x, up, h⟩
    · exact absurd h (propose_no_error (hs i _ (List.getElem?_eq_getElem hi)) (hr i))
    · exact .inl h
    · exact .inr ⟨nil, prime, seg, x, up, h⟩

/-! ## The generator -/

theorem matOf_gen {d : ℕ} {m : NMat} {g : Mat} (hg : IsGenerator d g) (h : ∀ i < d, ∀ j < d, m i j = some (g i j)) :
    ∃ lam, matOf d m = .ok lam ∧ IsGenerator d lam := by
  refine ⟨fun i j => (m i j).getD 0, ?_, ?_⟩
  · unfold matOf
    rw [if_neg]
    rintro ⟨i, hi, j, hj, e⟩
    rw [h i hi j hj] at e; cases e
  · refine ⟨fun i hi j hj hij => ?_, fun i hi => ?_⟩
    · simp only [h i hi j hj, Option.getD_some]; exact hg.off i hi j hj hij
    · rw [← hg.row i hi]
      exact Finset.sum_congr rfl fun j hj => by simp [h i hi j (Finset.mem_range.1 hj)]

theorem gibbs_inv {d : ℕ} {t vt : List ℝ} {F : ℝ} {s : HiddenState ζ} (hs : Coherent d t vt F s) {alp bet : NMat} {A B : Mat}
    (hh : Hyper d alp bet A B) {r : Res NMat} (ho : (gibbsGenerator d s.h alp bet).Out r) :
    ∃ m lam, r = .ok m ∧ matOf d m = .ok lam ∧ IsGenerator d lam := by
  obtain ⟨sk, hsk, skv, skr, skf, sks⟩ := prune_sound hs.ok.valid hs.ok.closed
  have hst : sk = s.sampler.state := by have := hs.sync; rw [hsk] at this; exact Except.ok.inj this
  have hup := update_hyper skv skr (hst ▸ hs.states) hh
  unfold gibbsGenerator at ho
  simp only [hsk, Prog.lift, Prog.ret_bind] at ho
  cases r with
  | error e => exact absurd ho (C19_sample_param_no_error hup e)
  | ok m =>
    obtain ⟨g, hg, hm⟩ := C19_sample_param hup m ho
    obtain ⟨lam, h1, h2⟩ := matOf_gen hg hm
    exact ⟨m, lam, rfl, h1, h2⟩

/-- All regimes listed are below `d`. -/
theorem Coherent.yt_lt {d : ℕ} {t vt : List ℝ} {F : ℝ} {s : HiddenState ζ} (hs : Coherent d t vt F s) : ∀ y ∈ s.h.yt, y < d := by
  obtain ⟨sk, hsk, skv, skr, skf, sks⟩ := prune_sound hs.ok.valid hs.ok.closed
  have hst : sk = s.sampler.state := by have := hs.sync; rw [hsk] at this; exact Except.ok.inj this
  intro y hy
  obtain ⟨i, hi, rfl⟩ := List.mem_iff_getElem.1 hy
  have hly := hs.ok.valid.leny
  have hz1 : (s.h.t.zip s.h.yt).map Prod.fst = s.h.t := List.map_fst_zip (by rw [hly])
  have hinc : (s.h.t.zip s.h.yt).Pairwise fun p q => p.1 < q.1 := by
    have := hs.ok.valid.inc; rw [← hz1, List.pairwise_map] at this; exact this
  have hit : i < s.h.t.length := by omega
  have hm : (s.h.t[i], s.h.yt[i]) ∈ s.h.t.zip s.h.yt := by
    rw [← List.getElem_zip (h := by simp; omega)]; exact List.getElem_mem _
  have h1 : sk.stateAt s.h.t[i] = some s.h.yt[i] := by rw [sks]; exact stAt_self hinc hm
  obtain ⟨a, ha, -⟩ := stAt_mem h1
  rw [hst] at ha
  exact hs.states _ (List.of_mem_zip ha).2

/-! ## One iteration -/

/-- A consistent state, with the schedules of its samplers. -/
structure JointInv (A : AdaptPar) (d : ℕ) (t vt : List ℝ) (fin : ℝ) (lb ub : Fin p → Option ℝ) (s : SweepState p ζ) : Prop where
  ok : JointOk d t vt fin lb ub s
  sched : ∃ m k, SchedInv A m k s.hid.sampler.sched
  samplers : ∀ i q, s.samplers[i]? = some q → SamplerInv A lb ub (s.thi i) q

/-- What the model of the library provides: augmentations are drawn by `sample_aug` with volatilities that do not vanish within the bounds. -/
structure SweepModel (HO : Thi p → HiddenOps ζ) (t vt : List ℝ) (fin : ℝ) (lb ub : Fin p → Option ℝ) (rawSeed : Thi p → ℝ → ℕ → ℝ → ℝ → Prog ζ) where
  vol : Thi p → ℕ → ℝ
  red : ℝ → ℝ
  dered : ℝ → ℝ
  vol_ne : ∀ thi, (∀ y j, Admissible (thi y j) (lb j) (ub j)) → ∀ y, vol thi y ≠ 0
  aug : ∀ thi y, (HO thi).aug y = sampleAug (vol thi) red dered (rawSeed thi) y t vt
  grid : ObsGrid t vt fin
  undo : ∀ v ∈ vt, dered (dered (red v)) = v ∧ dered v = v

/-- The exceptions an iteration may raise. -/
def SweepErr (PO : Anchorage ℝ ℝ → ParamOps p ζ) (HO : Thi p → HiddenOps ζ) (rawSeed : Thi p → ℝ → ℕ → ℝ → ℝ → Prog ζ) (e : PyErr) : Prop :=
  e = .fuel ∨ e = .budget ∨ (∃ h nil prime seg x up, ((PO h).flip nil prime seg x up).Out (.error e)) ∨
    (∃ thi q x, ((HO thi).flip q x).Out (.error e)) ∨ ∃ thi dt y0 x0 x1, (rawSeed thi dt y0 x0 x1).Out (.error e)

/-- The start of the chain. -/
theorem sweepInit_out {fuel d : ℕ} [NeZero d] {A : AdaptPar} {HO : Thi p → HiddenOps ζ} {t vt : List ℝ} {F : ℝ} {lb ub : Fin p → Option ℝ}
    {rawSeed : Thi p → ℝ → ℕ → ℝ → ℝ → Prog ζ} (M : SweepModel HO t vt F lb ub rawSeed) (PO : Anchorage ℝ ℝ → ParamOps p ζ) {alp bet : NMat} {A0 B0 : Mat}
    (hh : Hyper d alp bet A0 B0) {thi0 : Fin p → ℝ} (h0 : ∀ j, Admissible (thi0 j) (lb j) (ub j)) {r : Res (SweepState p ζ)}
    (ho : (sweepInit fuel d A HO F alp bet thi0 lb ub).Out r) :
    Sat (fun s' => JointInv A d t vt F lb ub s') (fun e => 2 ≤ d → 4 ≤ t.length → SweepErr PO HO rawSeed e) r := by
  obtain ⟨g, hg, hm, -⟩ := C19_get_ev hh
  obtain ⟨lam, hlam, hgen⟩ := matOf_gen hg hm
  unfold sweepInit at ho
  simp only [hlam, Prog.lift, Prog.ret_bind] at ho
  rw [Prog.out_bind] at ho
  rcases ho with ⟨hid, hhid, ho⟩ | ⟨e, he, rfl⟩
  · rw [Prog.out_ret] at ho
    subst ho
    obtain ⟨c1, c2⟩ := C24_init (M.vol_ne _ fun _ => h0) (M.aug _) M.grid M.undo hhid
    have hi : ∀ (i : ℕ) q, (List.replicate d (MvRw.init A thi0 lb ub))[i]? = some q → SamplerInv A lb ub thi0 q := by
      intro i q hq
      rw [List.getElem?_replicate] at hq
      split_ifs at hq
      cases hq
      exact samplerInv_init ..
    exact ⟨⟨c1, hgen, fun _ => h0, by simp, fun i q hq => (hi i q hq).ok⟩, ⟨_, _, c2⟩, hi⟩
  · intro h2 h4
    have hF : 0 < F := by
      have hinc := M.grid.inc
      rw [M.grid.eq_ext, List.pairwise_cons] at hinc
      exact hinc.1 F (by simp)
    unfold initHidden at he
    rw [Prog.out_bind_error] at he
    rcases he with he | ⟨y, hy, he⟩
    · exact .inl (forwards_none_error h2 hgen he)
    · rw [Prog.out_bind_error] at he
      rcases he with he | ⟨q, -, he⟩
      · obtain ⟨hpl, -⟩ := forwards_none_pathLike hF hy
        have hf := hpl.fin_eq
        have hgr := M.grid
        rw [← hf] at hgr
        rw [M.aug] at he
        rcases aug_out (M.vol_ne _ fun _ => h0) hpl.valid hpl.reduced hgr M.undo he with ⟨z, h, h1, h2⟩ | ⟨e', dt, y0, x0, x1, h1, h2⟩
        · cases h1
        · cases h1
          exact .inr (.inr (.inr (.inr ⟨_, dt, y0, x0, x1, h2⟩)))
      · simp at he

/-! ## Almost surely -/

/-- `update_hidden`, with probability one. -/
theorem updateHidden_as {d : ℕ} [NeZero d] {fuel : ℕ} {A : AdaptPar} {C : McmcControls} {O : HiddenOps ζ} {vol : ℕ → ℝ}
    (hvol : ∀ y, vol y ≠ 0) {red dered : ℝ → ℝ} {rawSeed : ℝ → ℕ → ℝ → ℝ → Prog ζ} {t vt : List ℝ} {F : ℝ}
    (hO : ∀ y, O.aug y = sampleAug vol red dered rawSeed y t vt) (hg : ObsGrid t vt F)
    (hd : ∀ v ∈ vt, dered (dered (red v)) = v ∧ dered v = v) {lam : Mat} (hlam : IsGenerator d lam) {s : HiddenState ζ}
    (hs : Coherent d t vt F s) {m k : ℕ} (hsched : SchedInv A m k s.sampler.sched) :
    (updateHidden fuel d A C O t lam s).ASure (Sat (fun s' => Coherent d t vt F s' ∧ (∃ m' k', SchedInv A m' k' s'.sampler.sched) ∧
        ∃ (y' : Skel ℝ) (tc : List ℝ) (acc : List Bool), y'.Valid ∧ y'.fin = F ∧ tc.Sublist t.tail.dropLast ∧
          Mixes (0 :: (tc ++ [F])) acc s.sampler.state.stateAt y'.stateAt s'.sampler.state.stateAt)
      (fun e => 2 ≤ d → 4 ≤ t.length → e = .fuel ∨ e = .budget ∨ (∃ q x, (O.flip q x).Out (.error e)) ∨ ∃ dt y0 x0 x1, (rawSeed dt y0 x0 x1).Out (.error e))) := by
  obtain ⟨sk, hsk, skv, skr, skf, sks⟩ := prune_sound hs.ok.valid hs.ok.closed
  have hst : sk = s.sampler.state := by have := hs.sync; rw [hsk] at this; exact Except.ok.inj this
  subst hst
  obtain ⟨sc, hsc⟩ := lastOf_sched hsched
  have hinc := hg.inc
  rw [hg.eq_ext, List.pairwise_cons, List.pairwise_append] at hinc
  have hin : ∀ a ∈ t.tail.dropLast, 0 ≤ a ∧ a ≤ s.sampler.state.fin := fun a ha => by
    rw [skf, hs.ok.fin_eq]
    exact ⟨(hinc.1 a (by simp [ha])).le, (hinc.2.2.2 a ha F (by simp)).le⟩
  unfold updateHidden
  simp only [hsc, Prog.lift, Prog.ret_bind, pySlice_interior]
  refine Prog.ASure.bind (P := Sat (fun p : Skel ℝ × List ℝ => p.1.Valid ∧ p.1.Reduced ∧ p.1.fin = s.sampler.state.fin ∧ p.1.StatesLt d ∧
      p.2.Sublist t.tail.dropLast.tail.dropLast ∧ ∀ c ∈ p.2, p.1.stateAt c = s.sampler.state.stateAt c) (fun e => 2 ≤ d → 4 ≤ t.length → e = .fuel))
    (Prog.ASure.of_gen (diffuse_mjpPropose skv hinc.2.1 hin) (h := [0]) ?_) ?_ ?_
  · intro r h' hr
    cases r with
    | error e => exact fun h2 h4 => propose_error h2 hlam skv hs.states hinc.2.1 hin (by simp; omega) (by simp) hr
    | ok q => exact propose_gen hlam skv hinc.2.1 hin (prop := q.1) (tc := q.2) (by simp) hr
  · rintro q ⟨v1, r1, f1, st1, sub1, ag1⟩
    refine Prog.ASure.of_out fun r ho => ?_
    have sub2 : q.2.Sublist t.tail.dropLast := sub1.trans ((List.dropLast_sublist _).trans (List.tail_sublist _))
    have := updateWith_out (d := d) hvol hO hg hd hs.ok hsched v1 r1 (f1.trans (skf.trans hs.ok.fin_eq)) sub2
      (fun c hc => by rw [ag1 c hc, sks]) ho
    cases r with
    | error e => exact fun _ _ => .inr this
    | ok s' =>
      obtain ⟨a1, a2, a3, ⟨acc, a4⟩, a5⟩ := this
      refine ⟨⟨a1, a2, a5 d st1 ?_⟩, a3, q.1, q.2, acc, v1, f1.trans (skf.trans hs.ok.fin_eq), sub2, ?_⟩
      · intro s0 x hx
        rw [← sks] at hx
        obtain ⟨a, ha, -⟩ := stAt_mem hx
        exact hs.states x (List.of_mem_zip ha).2
      · have e : s.sampler.state.stateAt = s.h.stateAt := funext sks
        rw [e]; exact a4
  · intro e he h2 h4; exact .inl (he h2 h4)

section

variable {root : Matrix (Fin p) (Fin p) ℝ → Matrix (Fin p) (Fin p) ℝ} {fuel d : ℕ} [NeZero d] {A : AdaptPar} {C : McmcControls}
  {PO : Anchorage ℝ ℝ → ParamOps p ζ} {HO : Thi p → HiddenOps ζ} {t vt : List ℝ} {F : ℝ} {lb ub : Fin p → Option ℝ}
  {rawSeed : Thi p → ℝ → ℕ → ℝ → ℝ → Prog ζ} {alp bet : NMat} {A0 B0 : Mat}

theorem sweepJoint_as (M : SweepModel HO t vt F lb ub rawSeed) (hh : Hyper d alp bet A0 B0) {s : SweepState p ζ} (hs : JointInv A d t vt F lb ub s) :
    (sweepJoint root fuel d A C PO HO t alp bet s).ASure
      (Sat (fun s' => JointInv A d t vt F lb ub s') (fun e => 2 ≤ d → 4 ≤ t.length → SweepErr PO HO rawSeed e)) := by
  have hv := hs.ok.hidden.ok.valid
  have hseeds := hs.ok.hidden.ok.seeds
  unfold sweepJoint
  refine Prog.ASure.bind (Prog.ASure.of_out fun r hr => gibbs_inv hs.ok.hidden hh hr) ?_ ?_
  · rintro m ⟨m', lam, hm, hlam, hgen⟩
    cases hm
    simp only [hlam, Prog.lift, Prog.ret_bind]
    refine Prog.ASure.bind (Prog.ASure.of_out fun r hr => hr) ?_ ?_
    · rintro ⟨thi, z', ss'⟩ hq
      obtain ⟨a1, a2, a3, a4⟩ := updateParams_inv hv hseeds hs.ok.rows hs.samplers hq
      have hc : Coherent d t vt F ({ s.hid with z := z' } : HiddenState ζ) :=
        ⟨⟨hv, hs.ok.hidden.ok.closed, hs.ok.hidden.ok.fin_eq, by simp only [a1]; exact hseeds, hs.ok.hidden.ok.obs⟩, hs.ok.hidden.sync, hs.ok.hidden.states⟩
      obtain ⟨ms, ks, hsched⟩ := hs.sched
      refine Prog.ASure.bind (updateHidden_as (M.vol_ne _ a3) (M.aug thi) M.grid M.undo hgen hc hsched) ?_ ?_
      · rintro hid ⟨c1, c2, -⟩
        exact ⟨⟨c1, hgen, a3, a2.trans hs.ok.count, fun i q hq => (a4 i q hq).ok⟩, c2, a4⟩
      · intro e he h2 h4
        rcases he h2 h4 with h | h | ⟨x, y, h⟩ | ⟨dt, y0, x0, x1, h⟩
        · exact .inl h
        · exact .inr (.inl h)
        · exact .inr (.inr (.inr (.inl ⟨_, x, y, h⟩)))
        · exact .inr (.inr (.inr (.inr ⟨_, dt, y0, x0, x1, h⟩)))
    · intro e he h2 h4
      rcases updateParams_err hv hseeds hs.ok.rows hs.samplers (by rw [hs.ok.count]; exact hs.ok.hidden.yt_lt) he with h | h
      · exact .inr (.inl h)
      · exact .inr (.inr (.inl ⟨_, h⟩))
  · rintro e ⟨m, lam, h, -⟩; cases h

theorem sweepLoop_as (M : SweepModel HO t vt F lb ub rawSeed) (hh : Hyper d alp bet A0 B0) (n : ℕ) :
    ∀ {s : SweepState p ζ}, JointInv A d t vt F lb ub s → (sweepLoop (sweepJoint root fuel d A C PO HO t alp bet) n s).ASure
      (Sat (fun s' => JointInv A d t vt F lb ub s') (fun e => 2 ≤ d → 4 ≤ t.length → SweepErr PO HO rawSeed e)) := by
  induction n with
  | zero => intro s hs; exact hs
  | succ n ih => intro s hs; exact (sweepJoint_as M hh hs).bind (fun s' hs' => ih hs') fun e he => he

end

end Ctb
