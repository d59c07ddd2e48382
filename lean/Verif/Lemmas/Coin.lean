import Verif.Model.Seed
import Verif.Spec.Coin
import Verif.Lemmas.Ppp
import Verif.Basic.Law

/-! # Lemmas about the loops of the Poisson coins -/

set_option linter.unusedSectionVars false

namespace Ctb

open Classical
open MeasureTheory
open scoped ENNReal

theorem rowPoint_eq : rowPoint = pointOf := rfl

theorem byTime_perm (rows : List (List ℝ)) : (byTime rows).Perm (rows.map rowPoint) := List.perm_insertionSort _ _

theorem byTime_sorted (rows : List (List ℝ)) : ((byTime rows).map Prod.snd).Pairwise (· ≤ ·) := by
  haveI : Std.Total (fun a b : ℝ × ℝ => a.2 ≤ b.2) := ⟨fun a b => le_total _ _⟩
  haveI : IsTrans (ℝ × ℝ) (fun a b : ℝ × ℝ => a.2 ≤ b.2) := ⟨fun a b c => le_trans⟩
  rw [List.pairwise_map]
  exact List.pairwise_insertionSort _ _

theorem drawRow_single (T : ℝ) : drawRow [T] = .real (.uniform 0 T) fun x => .ret [x] := by
  simp [drawRow, Prog.mapM', Prog.draw, Prog.real_bind, Prog.ret_bind]

theorem gen_replicate_row {T : ℝ} (hT : 0 < T) {n : ℕ} : ∀ {H H' : List ℝ} {rows : List (List ℝ)},
    (Prog.replicate n (drawRow [T])).Gen H (.ok rows) H' →
    rows.length = n ∧ (rows.map fun r => r.headD 0).Nodup ∧ (∀ r ∈ rows, r.headD 0 ∉ H ∧ 0 ≤ r.headD 0 ∧ r.headD 0 < T) := by
  induction n with
  | zero =>
    intro H H' rows h
    simp only [Prog.replicate, Prog.gen_ret, Except.ok.injEq] at h
    obtain ⟨rfl, -⟩ := h
    simp
  | succ n ih =>
    intro H H' rows h
    rw [Prog.replicate, drawRow_single] at h
    simp only [Prog.real_bind, Prog.gen_real, Prog.ret_bind, Prog.gen_bind_ok, Prog.gen_ret] at h
    obtain ⟨x, hx, hn, l1, H1, hl, h2, rfl⟩ := h
    cases h2
    rw [← drawRow_single] at hl
    obtain ⟨a1, a2, a3⟩ := ih hl
    refine ⟨by simp [a1], ?_, ?_⟩
    · rw [List.map_cons, List.nodup_cons]
      refine ⟨fun hm => ?_, a2⟩
      obtain ⟨r, hr, he⟩ := List.mem_map.1 hm
      exact (a3 r hr).1 (by rw [he]; simp)
    · intro r hr
      rcases List.mem_cons.1 hr with rfl | hr
      · exact ⟨hn, uniform_mem hT hx⟩
      · exact ⟨fun hm => (a3 r hr).1 (List.mem_cons_of_mem _ hm), (a3 r hr).2⟩

/-- In one batch of generic draws the times are distinct. -/
theorem pppBatch_gen {n : ℕ} {b0 T : ℝ} (hT : 0 < T) {lb : ℝ} {i : ℕ} (hi : 0 < i) {H H' : List ℝ} {ub : ℝ}
    {pts : List (List ℝ)} (h : (pppBatch n b0 [T] lb i).Gen H (.ok (ub, pts)) H') :
    ((byTime pts).map Prod.snd).Pairwise (· < ·) ∧ byTime pts ≠ [] ∧ ∀ p ∈ byTime pts, 0 ≤ p.2 ∧ p.2 < T := by
  unfold pppBatch at h
  rw [Prog.gen_real] at h
  obtain ⟨x, -, -, h⟩ := h
  dsimp only at h
  rw [Prog.gen_bind_ok] at h
  obtain ⟨u0, H1, hu0, h⟩ := h
  rw [Prog.gen_bind_ok] at h
  obtain ⟨u, H2, hu, h⟩ := h
  simp only [Prog.gen_ret, Except.ok.injEq, Prod.mk.injEq] at h
  obtain ⟨⟨rfl, rfl⟩, -⟩ := h
  obtain ⟨a1, a2, a3⟩ := gen_replicate_row hT hu
  have hl0 : u0.length = i := by
    have h0 := hu0.out
    split at h0
    · simp only [Prog.out_ret, Except.ok.injEq] at h0
      subst h0; simp; omega
    · rw [Prog.out_bind_ok] at h0
      obtain ⟨us, hus, h0⟩ := h0
      simp only [Prog.out_ret, Except.ok.injEq] at h0
      subst h0
      rw [Prog.out_replicate_ok] at hus
      rw [List.length_append, (npSort_perm us).length_eq, hus.1]; simp; omega
  have hsnd : ((List.zipWith (fun a r => a :: r) u0 u).map rowPoint).map Prod.snd = u.map fun r => r.headD 0 := by
    rw [List.map_map]
    refine List.ext_getElem (by simp; omega) fun k h1 h2 => ?_
    simp [rowPoint]
  have hp := (byTime_perm (List.zipWith (fun a r => a :: r) u0 u))
  have hps := hp.map Prod.snd
  rw [hsnd] at hps
  have hnd : ((byTime (List.zipWith (fun a r => a :: r) u0 u)).map Prod.snd).Nodup := hps.nodup_iff.2 a2
  refine ⟨?_, ?_, ?_⟩
  · have := (byTime_sorted (List.zipWith (fun a r => a :: r) u0 u)).and hnd
    exact this.imp fun h => lt_of_le_of_ne h.1 h.2
  · intro h0
    have := hp.length_eq
    rw [h0] at this
    simp at this
    omega
  · intro p hp'
    have : p.2 ∈ u.map fun r => r.headD 0 := hps.mem_iff.1 (List.mem_map_of_mem hp')
    obtain ⟨r, hr, he⟩ := List.mem_map.1 this
    rw [← he]
    exact (a3 r hr).2

/-- The process of batches can always be continued. -/
theorem pppLoop_exists (n : ℕ) {b0 T : ℝ} (is : List ℕ) : ∀ lb : ℝ, ∃ out, (pppLoop n b0 [T] lb is).Out (.ok out) := by
  induction is with
  | nil => intro lb; exact ⟨[], by simp [pppLoop]⟩
  | cons i is ih =>
    intro lb
    have hu : ∀ lo hi : ℝ, lo ∈ (RDist.uniform lo hi).support := fun lo hi => ⟨0, le_rfl, one_pos, by ring⟩
    obtain ⟨rest, hr⟩ := ih (lb + b0 * (1 / 2))
    have hb : ∃ pts, (pppBatch n b0 [T] lb i).Out (.ok (lb + b0 * (1 / 2), pts)) := by
      unfold pppBatch
      simp only [Prog.out_real]
      by_cases h1 : i = 1
      · refine ⟨List.zipWith (fun a r => a :: r) [lb + b0 * (1 / 2)] (List.replicate i [0]), 1 / 2, by simp only [RDist.support, Set.mem_Ioo]; norm_num, ?_⟩
        rw [if_pos h1, Prog.ret_bind, Prog.out_bind_ok]
        refine ⟨List.replicate i [0], ?_, by simp⟩
        rw [Prog.out_replicate_ok]
        refine ⟨by simp, fun a ha => ?_⟩
        rw [List.mem_replicate] at ha
        rw [ha.2, drawRow_single, Prog.out_real]
        exact ⟨0, hu 0 T, by simp⟩
      · refine ⟨List.zipWith (fun a r => a :: r) (npSort (List.replicate (i - 1) lb) ++ [lb + b0 * (1 / 2)]) (List.replicate i [0]), 1 / 2,
          by simp only [RDist.support, Set.mem_Ioo]; norm_num, ?_⟩
        rw [if_neg h1, Prog.out_bind_ok]
        refine ⟨npSort (List.replicate (i - 1) lb) ++ [lb + b0 * (1 / 2)], ?_, ?_⟩
        · rw [Prog.out_bind_ok]
          refine ⟨List.replicate (i - 1) lb, ?_, by simp⟩
          rw [Prog.out_replicate_ok]
          refine ⟨by simp, fun a ha => ?_⟩
          rw [List.mem_replicate] at ha
          rw [ha.2, Prog.out_draw]
          exact ⟨lb, hu _ _, rfl⟩
        · rw [Prog.out_bind_ok]
          refine ⟨List.replicate i [0], ?_, by simp⟩
          rw [Prog.out_replicate_ok]
          refine ⟨by simp, fun a ha => ?_⟩
          rw [List.mem_replicate] at ha
          rw [ha.2, drawRow_single, Prog.out_real]
          exact ⟨0, hu 0 T, by simp⟩
    obtain ⟨pts, hb⟩ := hb
    refine ⟨pts :: rest, ?_⟩
    rw [pppLoop, Prog.out_bind_ok]
    refine ⟨_, hb, ?_⟩
    rw [Prog.out_bind_ok]
    exact ⟨rest, hr, by simp⟩

/-- The examination of one batch of points at distinct times. -/
def BatchStep {σ : Type} (step : σ → List (ℝ × ℝ) → Prog (Bool × σ)) (T : ℝ) (s : σ) (b : List (List ℝ)) (v : Bool) (s' : σ) : Prop :=
  (((byTime b).map Prod.snd).Pairwise (· < ·) ∧ byTime b ≠ [] ∧ ∀ p ∈ byTime b, 0 ≤ p.2 ∧ p.2 < T) ∧ (step s (byTime b)).Out (.ok (v, s'))

theorem coinLoop_gen {σ : Type} {step : σ → List (ℝ × ℝ) → Prog (Bool × σ)} {m : ℕ} {h T : ℝ} (hT : 0 < T) {is : List ℕ}
    (his : ∀ i ∈ is, 0 < i) : ∀ {s s' : σ} {lb : ℝ} {v : Bool} {H H' : List ℝ}, (coinLoop step m h T s lb is).Gen H (.ok (v, s')) H' →
    ∃ (bs : List (List (List ℝ))) (j : ℕ), (pppLoop m h [T] lb is).Out (.ok bs) ∧ j ≤ bs.length ∧ (v = true → j = bs.length) ∧
      Searched (BatchStep step T) s (bs.take j) v s' := by
  induction is with
  | nil =>
    intro s s' lb v H H' hg
    simp only [coinLoop, Prog.gen_ret, Except.ok.injEq, Prod.mk.injEq] at hg
    obtain ⟨⟨rfl, rfl⟩, -⟩ := hg
    exact ⟨[], 0, by simp [pppLoop], le_rfl, fun _ => rfl, .done _⟩
  | cons i is ih =>
    intro s s' lb v H H' hg
    rw [coinLoop, Prog.gen_bind_ok] at hg
    obtain ⟨⟨ub, pts⟩, H1, hb, hg⟩ := hg
    rw [Prog.gen_bind_ok] at hg
    obtain ⟨⟨w, s1⟩, H2, hst, hg⟩ := hg
    have hbg := pppBatch_gen hT (his i (by simp)) hb
    dsimp only at hg hst
    cases w with
    | true =>
      rw [if_pos rfl] at hg
      simp only [Prog.gen_ret, Except.ok.injEq, Prod.mk.injEq] at hg
      obtain ⟨⟨rfl, rfl⟩, -⟩ := hg
      obtain ⟨rest, hr⟩ := pppLoop_exists m (b0 := h) (T := T) is ub
      refine ⟨pts :: rest, 1, ?_, by simp, by simp, ?_⟩
      · rw [pppLoop, Prog.out_bind_ok]
        refine ⟨_, hb.out, ?_⟩
        rw [Prog.out_bind_ok]
        exact ⟨rest, hr, by simp⟩
      · simp only [List.take_succ_cons, List.take_zero]
        exact .stop ⟨hbg, hst.out⟩
    | false =>
      rw [if_neg (by simp)] at hg
      obtain ⟨rest, j, h1, h2, h3, h4⟩ := ih (fun j hj => his j (by simp [hj])) hg
      refine ⟨pts :: rest, j + 1, ?_, by simpa using h2, fun h => by simp [h3 h], ?_⟩
      · rw [pppLoop, Prog.out_bind_ok]
        refine ⟨_, hb.out, ?_⟩
        rw [Prog.out_bind_ok]
        exact ⟨rest, h1, by simp⟩
      · simp only [List.take_succ_cons]
        exact .go ⟨hbg, hst.out⟩ h4

theorem batchCoin_gen {σ : Type} {step : σ → List (ℝ × ℝ) → Prog (Bool × σ)} {h T : ℝ} {size : ℤ} {s s' : σ} {v : Bool} {H H' : List ℝ}
    (hg : (batchCoin step h T size s).Gen H (.ok (v, s')) H') : 0 < h ∧ 0 < T ∧ 0 < size ∧
    ∃ (bs : List (List (List ℝ))) (j : ℕ), (sampleBatchPpp 1 [h, T] size).Out (.ok bs) ∧ j ≤ bs.length ∧ (v = true → j = bs.length) ∧
      Searched (BatchStep step T) s (bs.take j) v s' := by
  unfold batchCoin at hg
  by_cases hb : ∀ b ∈ [h, T], 0 < b
  · rw [Prog.assert, if_pos hb, Prog.ret_bind] at hg
    by_cases hs : 0 < size
    · rw [Prog.assert, if_pos hs, Prog.ret_bind, Prog.gen_nat] at hg
      obtain ⟨m, hm, hg⟩ := hg
      have hT : 0 < T := hb T (by simp)
      obtain ⟨bs, j, h1, h2⟩ := coinLoop_gen hT (fun i hi => (batchSizes_pos (by omega) i hi).1) hg
      refine ⟨hb h (by simp), hT, hs, bs, j, ?_, h2⟩
      unfold sampleBatchPpp
      simp only [Prog.assert, zero_lt_one, if_true, Prog.ret_bind]
      rw [if_pos hb, Prog.ret_bind, if_pos hs, Prog.ret_bind, Prog.out_nat]
      exact ⟨m, hm, h1⟩
    · rw [Prog.assert, if_neg hs, Prog.err_bind] at hg
      simp at hg
  · rw [Prog.assert, if_neg hb, Prog.err_bind] at hg
    simp at hg

/-! ## Fixed path: the coin has the law of the search through all batches -/

/-- The result is a success with the verdict `true`. -/
def IsTrue {σ : Type} (r : Res (Bool × σ)) : Prop := ∃ s, r = .ok (true, s)

/-- No point of the batches satisfies `F`. -/
def NoPoint (F : ℝ × ℝ → Prop) (r : Res (List (List (List ℝ)))) : Prop := ∃ bs, r = .ok bs ∧ ∀ p ∈ bs.flatten, ¬ F (pointOf p)

theorem coinLoop_prob {σ : Type} {step : σ → List (ℝ × ℝ) → Prog (Bool × σ)} {h T : ℝ} (hh : 0 < h) (hT : 0 < T) {F : ℝ × ℝ → Prop}
    (hstep : ∀ s ps, ps ≠ [] → (∀ p ∈ ps, 0 ≤ p.2 ∧ p.2 < T) → ∃ s', step s ps = .ret (decide (∃ p ∈ ps, F p), s')) {m : ℕ} {is : List ℕ} (his : ∀ i ∈ is, 0 < i) :
    ∀ (s : σ) (lb : ℝ), (coinLoop step m h T s lb is).prob IsTrue = (pppLoop m h [T] lb is).prob (NoPoint F) := by
  induction is with
  | nil =>
    intro s lb
    simp only [Prog.prob, coinLoop, pppLoop, Prog.lexp_ret]
    rw [if_pos ⟨s, rfl⟩, if_pos ⟨[], rfl, by simp⟩]
  | cons i is ih =>
    intro s lb
    have hi := his i (by simp)
    unfold Prog.prob
    rw [coinLoop, pppLoop, Prog.lexp_bind, Prog.lexp_bind]
    refine Prog.lexp_congr fun r hr => ?_
    rcases r with e | ⟨ub, pts⟩
    · simp only [Prog.cont_error]
      rw [if_neg (by rintro ⟨s, hs⟩; simp at hs), if_neg (by rintro ⟨s, hs, -⟩; simp at hs)]
    · simp only [Prog.cont_ok]
      obtain ⟨-, -, a3, -, a5⟩ := pppBatch_ok hh (by simpa using hT) hi hr
      have hperm := byTime_perm pts
      have hts : ∀ p ∈ byTime pts, 0 ≤ p.2 ∧ p.2 < T := by
        intro p hp
        obtain ⟨row, hrow, rfl⟩ := List.mem_map.1 (hperm.mem_iff.1 hp)
        have h2 := (a5 row hrow).2.2
        rcases hc : row.tail with _ | ⟨c, l⟩
        · rw [hc] at h2; cases h2
        · rw [hc] at h2
          cases h2 with
          | cons h1 h2 => simpa [rowPoint, hc] using h1
      have hne : byTime pts ≠ [] := by
        intro h0
        have := hperm.length_eq
        rw [h0] at this
        simp at this
        rw [← this] at a3
        omega
      obtain ⟨s', hs'⟩ := hstep s (byTime pts) hne hts
      rw [hs', Prog.ret_bind, Prog.lexp_bind]
      have hiff : (∃ p ∈ byTime pts, F p) ↔ ∃ row ∈ pts, F (pointOf row) := by
        constructor
        · rintro ⟨p, hp, hF⟩
          obtain ⟨row, hrow, rfl⟩ := List.mem_map.1 (hperm.mem_iff.1 hp)
          exact ⟨row, hrow, hF⟩
        · rintro ⟨row, hrow, hF⟩
          exact ⟨rowPoint row, hperm.mem_iff.2 (List.mem_map_of_mem hrow), hF⟩
      by_cases hF : ∃ p ∈ byTime pts, F p
      · rw [if_pos (by simpa using hF), Prog.lexp_ret, if_neg (by rintro ⟨s, hs⟩; simp at hs)]
        obtain ⟨row, hrow, hF⟩ := hiff.1 hF
        symm
        refine (Prog.lexp_congr (h := fun _ => 0) fun r _ => ?_).trans (Prog.lexp_zero _)
        rcases r with e | rest
        · simp only [Prog.cont_error]
          rw [if_neg (by rintro ⟨s, hs, -⟩; simp at hs)]
        · simp only [Prog.cont_ok, Prog.lexp_ret]
          rw [if_neg]
          rintro ⟨bs, hbs, hno⟩
          simp only [Except.ok.injEq] at hbs
          subst hbs
          exact hno row (by simp [hrow]) hF
      · rw [if_neg (by simpa using hF)]
        have := ih (fun j hj => his j (by simp [hj])) s' ub
        simp only [Prog.prob] at this
        rw [this]
        refine Prog.lexp_congr fun r _ => ?_
        rcases r with e | rest
        · simp only [Prog.cont_error]
        · simp only [Prog.cont_ok, Prog.lexp_ret]
          congr 1
          refine propext ⟨?_, ?_⟩
          · rintro ⟨bs, hbs, hno⟩
            simp only [Except.ok.injEq] at hbs
            subst hbs
            refine ⟨_, rfl, fun p hp => ?_⟩
            rw [List.flatten_cons, List.mem_append] at hp
            rcases hp with hp | hp
            · exact fun hFp => hF (hiff.2 ⟨p, hp, hFp⟩)
            · exact hno p hp
          · rintro ⟨bs, hbs, hno⟩
            simp only [Except.ok.injEq] at hbs
            subst hbs
            exact ⟨_, rfl, fun p hp => hno p (by simp only [List.flatten_cons, List.mem_append]; exact .inr hp)⟩

theorem batchCoin_prob {σ : Type} {step : σ → List (ℝ × ℝ) → Prog (Bool × σ)} {h T : ℝ} {size : ℤ} {F : ℝ × ℝ → Prop}
    (hstep : ∀ s ps, ps ≠ [] → (∀ p ∈ ps, 0 ≤ p.2 ∧ p.2 < T) → ∃ s', step s ps = .ret (decide (∃ p ∈ ps, F p), s')) (s : σ) :
    (batchCoin step h T size s).prob IsTrue = (sampleBatchPpp 1 [h, T] size).prob (NoPoint F) := by
  unfold batchCoin sampleBatchPpp
  simp only [Prog.assert, zero_lt_one, if_true, Prog.ret_bind]
  have he : ∀ e, (Prog.err e : Prog (Bool × σ)).prob IsTrue = (Prog.err e : Prog (List (List (List ℝ)))).prob (NoPoint F) := by
    intro e
    simp only [Prog.prob, Prog.lexp_err]
    rw [if_neg (by rintro ⟨s, hs⟩; simp at hs), if_neg (by rintro ⟨s, hs, -⟩; simp at hs)]
  by_cases hb : ∀ b ∈ [h, T], 0 < b
  · rw [if_pos hb]
    simp only [Prog.ret_bind]
    by_cases hs : 0 < size
    · rw [if_pos hs]
      simp only [Prog.ret_bind]
      unfold Prog.prob
      rw [Prog.lexp_nat, Prog.lexp_nat]
      refine lintegral_congr fun m => ?_
      exact coinLoop_prob (hb h (by simp)) (hb T (by simp)) hstep (fun i hi => (batchSizes_pos (by omega) i hi).1) s 0
    · rw [if_neg hs]
      simp only [Prog.err_bind]
      exact he _
  · rw [if_neg hb]
    simp only [Prog.err_bind]
    exact he _

end Ctb
