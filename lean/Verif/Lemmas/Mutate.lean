import Verif.Lemmas.Bridge
import Verif.Lemmas.Forwards

/-! # Lemmas about `mutate_partition` -/

set_option linter.unusedSectionVars false

namespace Ctb

variable {d : ℕ}

theorem dtrans_pos_off [NeZero d] {G : Matrix (Fin d) (Fin d) ℝ} (h : IsQMatrix G) {a b : Fin d} (hab : a ≠ b)
    (hp : 0 < dtrans G a b) : 0 < G a b := by
  unfold dtrans at hp
  rw [Matrix.add_apply, Matrix.one_apply_ne hab, zero_add, Matrix.smul_apply, smul_eq_mul] at hp
  have := h.rateBound_nonneg
  exact pos_of_mul_pos_right hp (by positivity)

/-- Properties shared by all simulated pieces. -/
structure PathLike (d : ℕ) (g : Mat) (fin : ℝ) (sk : Skel ℝ) : Prop where
  valid : sk.Valid
  fin_eq : sk.fin = fin
  states : sk.StatesLt d
  chain : sk.xt.IsChain fun i j => i ≠ j ∧ 0 < g i j

theorem PathLike.reduced {g : Mat} {fin : ℝ} {sk : Skel ℝ} (h : PathLike d g fin sk) : sk.Reduced :=
  h.chain.imp fun _ _ h => h.1

theorem forwards_pathLike {fuel : ℕ} {g : Mat} {fin : ℝ} (hf : 0 < fin) {x : ℕ} {sk : Skel ℝ}
    (h : (sampleForwards fuel d g fin (some x)).Out (.ok sk)) : PathLike d g fin sk ∧ sk.xt.head? = some x := by
  unfold sampleForwards at h
  simp only [Prog.ret_bind, Prog.out_bind_ok, Prog.out_ret, Except.ok.injEq] at h
  obtain ⟨l, hl, rfl⟩ := h
  obtain ⟨m, rfl, h1, h2, h3⟩ := forwardsLoop_out fuel 0 x l hf hl
  refine ⟨⟨⟨by simp, rfl, ?_, ?_⟩, rfl, ?_, h3⟩, rfl⟩
  · rw [List.pairwise_map]; exact h1
  · intro a ha
    obtain ⟨p, hp, rfl⟩ := List.mem_map.1 ha
    exact (h2 p hp).1
  · intro a ha
    obtain ⟨p, hp, rfl⟩ := List.mem_map.1 ha
    exact (h2 p hp).2

theorem forwards_none_pathLike {fuel : ℕ} {g : Mat} {fin : ℝ} (hf : 0 < fin) {sk : Skel ℝ}
    (h : (sampleForwards fuel d g fin none).Out (.ok sk)) :
    PathLike d g fin sk ∧ ∃ p x, getStat d g = .ok p ∧ 0 < p x ∧ sk.xt.head? = some x.val := by
  unfold sampleForwards at h
  simp only [Prog.out_bind_ok, Prog.out_lift, Prog.out_ret, Except.ok.injEq] at h
  obtain ⟨x, ⟨p, hp, y, hy, rfl⟩, l, hl, rfl⟩ := h
  obtain ⟨-, -, hpos⟩ := pyChoice_ok hy
  have h' : (sampleForwards fuel d g fin (some y.val)).Out (.ok ⟨l.map Prod.fst, l.map Prod.snd, fin⟩) := by
    unfold sampleForwards
    simp only [Prog.ret_bind, Prog.out_bind_ok, Prog.out_ret]
    exact ⟨l, hl, rfl⟩
  obtain ⟨h1, h2⟩ := forwards_pathLike hf h'
  exact ⟨h1, p, y, hp.symm, hpos, h2⟩

/-- Generic bridge between connected states. -/
theorem bridge_pathLike [NeZero d] {fuel : ℕ} {g : Mat} (hQ : IsQMatrix (toM d g)) {fin : ℝ} (hf : 0 < fin) {i f : Fin d}
    (hc : 0 < getTrans fin (toM d g) i f) {sk : Skel ℝ} {h0 h1 : List ℝ} (hz : 0 ∈ h0)
    (ho : (sampleBridge fuel (toM d g) fin i f).Gen h0 (.ok sk) h1) :
    PathLike d g fin sk ∧ sk.xt.head? = some i.val ∧ sk.xt.getLast? = some f.val := by
  unfold sampleBridge at ho
  rw [Prog.gen_real] at ho
  obtain ⟨U, hU, hn, ho⟩ := ho
  have hU0 : 0 < U := by
    have := (uniform_mem one_pos hU).1
    refine lt_of_le_of_ne this ?_
    rintro rfl; exact hn hz
  have hb := bridgeFrom_ok hQ hf hc hU0 ho.out
  have hv := bridgeFrom_gen hQ hf (List.mem_cons_of_mem _ hz) ho
  refine ⟨⟨hv, hb.fin_eq, hb.states, ?_⟩, hb.first, hb.last⟩
  refine hb.chain.imp ?_
  rintro a b ⟨hab, ha, hb', hp⟩
  refine ⟨hab, ?_⟩
  have := dtrans_pos_off hQ (a := ⟨a, ha⟩) (b := ⟨b, hb'⟩) (by simpa using hab) hp
  exact this

/-- A zero draw makes the bridge stay where it starts. -/
theorem bridge_zero_draw [NeZero d] {fuel : ℕ} {G : Matrix (Fin d) (Fin d) ℝ} {fin : ℝ} {i f : Fin d} :
    (sampleBridge (fuel + 1) G fin i f).Out (.ok ⟨[0], [i.val], fin⟩) := by
  unfold sampleBridge
  rw [Prog.out_real]
  refine ⟨0, ⟨0, le_rfl, one_pos, by simp⟩, ?_⟩
  unfold bridgeFrom
  have : sampleNTrans (fuel + 1) G fin i f 0 = .ok 0 := by
    unfold sampleNTrans nTransLoop
    rw [if_neg]
    split <;> simp
  simp [this, Prog.lift]

theorem IsGenerator.getTrans_pos [NeZero d] {g : Mat} (h : IsGenerator d g) {fin : ℝ} (hf : 0 < fin) (i f : Fin d) :
    0 < getTrans fin (toM d g) i f := by
  by_cases hif : i = f
  · subst hif; exact h.toQ.getTrans_self_pos hf.le i
  · exact h.toQ.getTrans_pos hf (h.off i i.2 f f.2 (fun e => hif (Fin.ext e)))

theorem lastState_ok {p : Skel ℝ} {x : Fin d} (h : (lastState d p).Out (.ok x)) : p.xt.getLast? = some x.val := by
  unfold lastState asState at h
  split at h
  · rename_i y hy
    split at h
    · simp at h; rw [hy, h]
    · simp at h
  · simp at h

theorem firstState_ok {p : Skel ℝ} {x : Fin d} (h : (firstState d p).Out (.ok x)) : p.xt.head? = some x.val := by
  unfold firstState asState at h
  split at h
  · rename_i y hy
    split at h
    · simp at h; rw [hy, h]
    · simp at h
  · simp at h

/-- What mutation promises for piece `k` of `n`. -/
structure Mutated (d : ℕ) (g : Mat) (n k : ℕ) (p q : Skel ℝ) : Prop where
  path : PathLike d g p.fin q
  first : 0 < k → q.xt.head? = p.xt.head?
  last : k + 1 < n → q.xt.getLast? = p.xt.getLast?

theorem mutate_gen [NeZero d] {fuel : ℕ} {g : Mat} (hg : IsGenerator d g) {ps qs : List (Skel ℝ)}
    (hpos : ∀ p ∈ ps, 0 < p.fin) {h0 h1 : List ℝ} (hz : 0 ∈ h0)
    (ho : (mutatePartition fuel d g ps).Gen h0 (.ok qs) h1) :
    qs.length = ps.length ∧ ∀ k p q, ps[k]? = some p → qs[k]? = some q → Mutated d g ps.length k p q := by
  unfold mutatePartition at ho
  split at ho
  · simp at ho
  · rename_i p
    rw [Prog.gen_bind_ok] at ho
    obtain ⟨q, k1, hq, ho⟩ := ho
    simp only [Prog.gen_ret, Except.ok.injEq] at ho
    obtain ⟨rfl, -⟩ := ho
    refine ⟨rfl, ?_⟩
    intro k p' q' hp' hq'
    have hk : k = 0 := by
      by_contra hk
      rw [List.getElem?_eq_none (by simp; omega)] at hp'; simp at hp'
    subst hk
    simp at hp' hq'; subst hp' hq'
    exact ⟨(forwards_none_pathLike (hpos p (by simp)) hq.out).1, fun h => absurd h (by omega), fun h => absurd h (by simp)⟩
  · rename_i p p' rest
    dsimp only at ho
    rw [Prog.gen_bind_ok] at ho
    obtain ⟨x, k1, hx, ho⟩ := ho
    rw [Prog.gen_bind_ok] at ho
    obtain ⟨iS, k2, hiS, ho⟩ := ho
    rw [Prog.gen_bind_ok] at ho
    obtain ⟨y, k3, hy, ho⟩ := ho
    rw [Prog.gen_bind_ok] at ho
    obtain ⟨fS, k4, hfS, ho⟩ := ho
    rw [Prog.gen_bind_ok] at ho
    obtain ⟨mids, k5, hm, ho⟩ := ho
    simp only [Prog.gen_ret, Except.ok.injEq] at ho
    obtain ⟨rfl, -⟩ := ho
    have z1 := hx.mono 0 hz
    have z2 := hiS.mono 0 z1
    have z3 := hy.mono 0 z2
    have z4 := hfS.mono 0 z3
    obtain ⟨ms, lst, hml⟩ : ∃ ms lst, p' :: rest = ms ++ [lst] := ⟨(p' :: rest).dropLast, (p' :: rest).getLast (by simp),
      (List.dropLast_append_getLast (by simp)).symm⟩
    have hlast : (p' :: rest).getLast (by simp) = lst := by simp [hml]
    have hdl : (p' :: rest).dropLast = ms := by simp [hml]
    rw [hlast] at hfS hy
    rw [hdl] at hm
    have hF := Prog.gen_mapM' hm
    have hlen := hF.length_eq
    rw [hml] at hpos ⊢
    refine ⟨by simp [hlen], ?_⟩
    intro k a b ha hb
    rcases Nat.eq_zero_or_pos k with rfl | hk
    · simp at ha hb; subst ha hb
      unfold sampleBackwards at hiS
      rw [Prog.gen_bind_ok] at hiS
      obtain ⟨i, k6, hi, hbr⟩ := hiS
      have hp := hpos p (by simp)
      obtain ⟨c1, c2, c3⟩ := bridge_pathLike hg.toQ hp (hg.getTrans_pos hp i x) (hi.mono 0 z1) hbr
      refine ⟨c1, fun h => absurd h (lt_irrefl _), fun _ => ?_⟩
      rw [c3, lastState_ok hx.out]
    · obtain ⟨k, rfl⟩ : ∃ j, k = j + 1 := ⟨k - 1, by omega⟩
      simp only [List.getElem?_cons_succ, List.cons_append] at ha hb
      by_cases hkm : k < ms.length
      · rw [List.getElem?_append_left hkm] at ha
        rw [List.getElem?_append_left (by omega)] at hb
        have hab := (List.forall₂_iff_get.1 hF).2 k hkm (by omega)
        rw [List.getElem?_eq_getElem hkm] at ha
        rw [List.getElem?_eq_getElem (by omega)] at hb
        simp only [Option.some.injEq] at ha hb
        simp only [List.get_eq_getElem] at hab
        rw [ha, hb] at hab
        obtain ⟨e1, e2, he, hG⟩ := hab
        rw [Prog.gen_bind_ok] at hG
        obtain ⟨u, f1, hu, hG⟩ := hG
        rw [Prog.gen_bind_ok] at hG
        obtain ⟨v, f2, hv, hG⟩ := hG
        have hp : 0 < a.fin := hpos a (by rw [← ha]; simp)
        have zz : 0 ∈ f2 := hv.mono 0 (hu.mono 0 (he 0 z4))
        obtain ⟨c1, c2, c3⟩ := bridge_pathLike hg.toQ hp (hg.getTrans_pos hp u v) zz hG
        refine ⟨c1, fun _ => ?_, fun _ => ?_⟩
        · rw [c2, firstState_ok hu.out]
        · rw [c3, lastState_ok hv.out]
      · have hkl : k = ms.length := by
          by_contra hne
          rw [List.getElem?_eq_none (by simp; omega)] at ha; simp at ha
        subst hkl
        rw [List.getElem?_append_right (by omega)] at ha hb
        simp [hlen] at ha hb
        subst ha hb
        have hp := hpos lst (by simp)
        obtain ⟨c1, c2⟩ := forwards_pathLike hp hfS.out
        refine ⟨c1, fun _ => ?_, fun h => absurd h (by simp)⟩
        rw [c2, firstState_ok hy.out]

end Ctb
