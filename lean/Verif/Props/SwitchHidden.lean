import Verif.Lemmas.SwitchUpdate
import Verif.Props.MjpSampling

/-!
# C21–C24, C26: hidden state of the switching sampler

`Out` ranges over all draws, `Gen [0]` over draws without an exact zero and without ties (see C07, C11).
-/

set_option linter.unusedSectionVars false

namespace Ctb

/-! ## C21 -/

section
variable {K : Type} [Field K] [LinearOrder K] [IsStrictOrderedRing K] {V ζ : Type}

/-- **C21.** Splitting at any set of times and pasting gives back the seeds and the anchorage. -/
theorem C21_split_paste {h : Anchorage K V} (hv : h.Valid) {z : List ζ} (hz : z.length + 1 = h.t.length) (new_t : List K) :
    ∃ zp hp, splitHidden z h new_t = .ok (zp, hp) ∧ pasteHidden zp hp = .ok (z, h) := split_paste hv hz new_t

/-- The split pieces are what they should be: one per pair of neighbouring cut times, each on the time scale of its own
start, with the regimes and exactly the anchors of `h` there and one seed per gap. -/
theorem C21_pieces {h : Anchorage K V} (hv : h.Valid) {z : List ζ} (hz : z.length + 1 = h.t.length) {tc : List K}
    (hs : tc.Sublist h.t.tail.dropLast) :
    ∃ zp hp, splitHidden z h tc = .ok (zp, hp) ∧ zp.length = tc.length + 1 ∧ hp.length = tc.length + 1 ∧
      ∀ k a b, (0 :: (tc ++ [h.fin]))[k]? = some a → (0 :: (tc ++ [h.fin]))[k + 1]? = some b →
        ∃ zk p, zp[k]? = some zk ∧ hp[k]? = some p ∧ p.Valid ∧ zk.length + 1 = p.t.length ∧ p.fin = b - a ∧
          (∀ s, 0 ≤ s → s ≤ p.fin → p.stateAt s = h.stateAt (a + s)) ∧
          (∀ s v, p.Has s v ↔ 0 ≤ s ∧ s ≤ p.fin ∧ h.Has (a + s) v) := by
  obtain ⟨zp, hp, h1, h2, h3, h4⟩ := split_sound hv hz hs
  refine ⟨zp, hp, h1, h2, h3, fun k a b ha hb => ?_⟩
  obtain ⟨zk, p, a1, a2, a3, a4, a5, a6, a7, -⟩ := h4 k a b ha hb
  exact ⟨zk, p, a1, a2, a3, a4, a5, a6, a7⟩

end

/-- Four anchors, cut at the second; the time 5 is no anchor and is ignored. -/
example : (⟨[0, 1, 2, 3], [0, 1, 1, 0], [5, 6, 7, 8]⟩ : Anchorage ℚ ℚ).Valid ∧
    splitHidden ['a', 'b', 'c'] (⟨[0, 1, 2, 3], [0, 1, 1, 0], [5, 6, 7, 8]⟩ : Anchorage ℚ ℚ) [1, 5] =
      .ok ([['a'], ['b', 'c']], [⟨[0, 1], [0, 1], [5, 6]⟩, ⟨[0, 1, 2], [1, 1, 0], [6, 7, 8]⟩]) := by
  refine ⟨⟨rfl, rfl, rfl, by simp; norm_num, by simp⟩, ?_⟩
  simp [splitHidden, breakRows, anchPiece, pyGet, pySlice, pyClip, bind, Except.bind, pure, Except.pure, List.mapM_cons]
  norm_num

/-! ## C22 -/

section
variable {ζ : Type}

/-- **C22** for the shipped models, whose `reduce` and `dereduce` are the identity: whatever is drawn, the result augments
`y`; the only exceptions are those of the seed sampler. -/
theorem C22_aug {vol : ℕ → ℝ} (hvol : ∀ y, vol y ≠ 0) {rawSeed : ℝ → ℕ → ℝ → ℝ → Prog ζ} {y : Skel ℝ} (hv : y.Valid)
    (hr : y.Reduced) {t vt : List ℝ} (hg : ObsGrid t vt y.fin) {r : Res (List ζ × Anchorage ℝ ℝ)}
    (h : (sampleAug vol id id rawSeed y t vt).Out r) :
    (∃ z h, r = .ok (z, h) ∧ Augments y t vt z h) ∨
      ∃ e dt y0 x0 x1, r = .error e ∧ (rawSeed dt y0 x0 x1).Out (.error e) :=
  aug_out hvol hv hr hg (fun _ _ => ⟨rfl, rfl⟩) h

/-- The same for any reduction, if applying `dereduce` once too often does no harm. -/
theorem C22_aug_reduced {vol : ℕ → ℝ} (hvol : ∀ y, vol y ≠ 0) {red dered : ℝ → ℝ} {rawSeed : ℝ → ℕ → ℝ → ℝ → Prog ζ}
    {y : Skel ℝ} (hv : y.Valid) (hr : y.Reduced) {t vt : List ℝ} (hg : ObsGrid t vt y.fin)
    (hd : ∀ v ∈ vt, dered (dered (red v)) = v ∧ dered v = v) {r : Res (List ζ × Anchorage ℝ ℝ)}
    (h : (sampleAug vol red dered rawSeed y t vt).Out r) :
    (∃ z h, r = .ok (z, h) ∧ Augments y t vt z h) ∨
      ∃ e dt y0 x0 x1, r = .error e ∧ (rawSeed dt y0 x0 x1).Out (.error e) :=
  aug_out hvol hv hr hg hd h

/-- Without that condition the observations are lost: with `reduce = log`, `dereduce = exp` and both observations 1, the
anchors all carry the value `e`. -/
theorem C22_nontrivial_reduction_violated {r : Res (List Unit × Anchorage ℝ ℝ)}
    (h : (sampleAug (fun _ => 1) Real.log Real.exp (fun _ _ _ _ => .ret ()) ⟨[0], [0], 1⟩ [0, 1] [1, 1]).Out r) :
    ∃ z h, r = .ok (z, h) ∧ h.t = [0, 1] ∧ ¬ h.Has 0 1 ∧ ¬ h.Has 1 1 := by
  have hp : partitionSkeleton (⟨[0], [0], 1⟩ : Skel ℝ) (pySlice [(0 : ℝ), 1] 1 (-1)) = [⟨[0], [0], 1⟩] := by
    rw [partitionSkeleton_eq, pySlice_interior]
    simp [piecesOf, pieceOf, searchRight, searchLeft, pySlice, pyClip]
  unfold sampleAug at h
  simp [hp, sampleAnchors, Prog.mapM', segments, npDiff] at h
  subst h
  have he : (1 : ℝ) ≠ Real.exp 1 := (Real.one_lt_exp_iff.2 one_pos).ne
  refine ⟨_, _, rfl, rfl, ?_, ?_⟩ <;> simp [Anchorage.Has, he]

/-- A path with a jump between two observations. -/
example : ∃ (y : Skel ℝ) (t vt : List ℝ), y.Valid ∧ y.Reduced ∧ ObsGrid t vt y.fin ∧ y.t.length = 2 := by
  refine ⟨⟨[0, 1 / 2], [0, 1], 2⟩, [0, 1, 2], [3, 4, 5], ⟨rfl, rfl, by simp, by intro a ha; simp at ha; rcases ha with rfl | rfl <;> norm_num⟩, by simp [Skel.Reduced],
    ⟨rfl, rfl, rfl, by simp, by simp⟩, rfl⟩

/-! ## C23 -/

/-- **C23.** For every proposal `y'` that agrees with the current path at the cut times `tc`, every accept/reject pattern
that can come out: the new state fits the data, the sampler holds the pruned anchorage, and that path follows the proposal on
accepted sections and the old path elsewhere.  The only exceptions are those of a coin, of the seed sampler, and the
exhausted two-coin budget. -/
theorem C23_recombine {A : AdaptPar} {C : McmcControls} {O : HiddenOps ζ} {vol : ℕ → ℝ} (hvol : ∀ y, vol y ≠ 0)
    {red dered : ℝ → ℝ} {rawSeed : ℝ → ℕ → ℝ → ℝ → Prog ζ} {t vt : List ℝ} {F : ℝ}
    (hO : ∀ y, O.aug y = sampleAug vol red dered rawSeed y t vt) (hg : ObsGrid t vt F)
    (hd : ∀ v ∈ vt, dered (dered (red v)) = v ∧ dered v = v) {s : HiddenState ζ} (hs : HiddenOk t vt F s.z s.h)
    {m k : ℕ} (hsched : SchedInv A m k s.sampler.sched) {y' : Skel ℝ} (hv : y'.Valid) (hr : y'.Reduced) (hf : y'.fin = F)
    {tc : List ℝ} (htc : tc.Sublist t.tail.dropLast) (hag : ∀ c ∈ tc, y'.stateAt c = s.h.stateAt c)
    {r : Res (HiddenState ζ)} (ho : (updateHiddenWith A C O s y' tc).Out r) :
    (∃ s', r = .ok s' ∧ HiddenOk t vt F s'.z s'.h ∧ pruneAnchorage s'.h = .ok s'.sampler.state ∧
      ∃ acc, Mixes (0 :: (tc ++ [F])) acc s.h.stateAt y'.stateAt s'.sampler.state.stateAt) ∨
    ∃ e, r = .error e ∧ (e = .budget ∨ (∃ q x, (O.flip q x).Out (.error e)) ∨
      ∃ dt y0 x0 x1, (rawSeed dt y0 x0 x1).Out (.error e)) := by
  have := updateWith_out (d := 0) hvol hO hg hd hs hsched hv hr hf htc hag ho
  cases r with
  | ok s' => exact .inl ⟨s', rfl, this.1, this.2.1, this.2.2.2.1⟩
  | error e => exact .inr ⟨e, rfl, this⟩

/-- C23 for the whole update, for generic draws (C11): proposals agree with the current path at the cut times. -/
theorem C23_update {d : ℕ} [NeZero d] {fuel : ℕ} {A : AdaptPar} {C : McmcControls} {O : HiddenOps ζ} {vol : ℕ → ℝ}
    (hvol : ∀ y, vol y ≠ 0) {red dered : ℝ → ℝ} {rawSeed : ℝ → ℕ → ℝ → ℝ → Prog ζ} {t vt : List ℝ} {F : ℝ}
    (hO : ∀ y, O.aug y = sampleAug vol red dered rawSeed y t vt) (hg : ObsGrid t vt F)
    (hd : ∀ v ∈ vt, dered (dered (red v)) = v ∧ dered v = v) {lam : Mat} (hlam : IsGenerator d lam) {s : HiddenState ζ}
    (hs : Coherent d t vt F s) {m k : ℕ} (hsched : SchedInv A m k s.sampler.sched) {s' : HiddenState ζ} {h1 : List ℝ}
    (ho : (updateHidden fuel d A C O t lam s).Gen [0] (.ok s') h1) :
    Coherent d t vt F s' ∧ ∃ (y' : Skel ℝ) (tc : List ℝ) (acc : List Bool), y'.Valid ∧ y'.fin = F ∧ tc.Sublist t.tail.dropLast ∧
      Mixes (0 :: (tc ++ [F])) acc s.sampler.state.stateAt y'.stateAt s'.sampler.state.stateAt := by
  have := update_gen hvol hO hg hd hlam hs hsched (by simp) ho
  exact ⟨this.1, this.2.2⟩

/-! ## C24 -/

/-- Start of the chain. -/
theorem C24_init {d : ℕ} [NeZero d] {fuel : ℕ} {A : AdaptPar} {O : HiddenOps ζ} {vol : ℕ → ℝ}
    (hvol : ∀ y, vol y ≠ 0) {red dered : ℝ → ℝ} {rawSeed : ℝ → ℕ → ℝ → ℝ → Prog ζ} {t vt : List ℝ} {F : ℝ}
    (hO : ∀ y, O.aug y = sampleAug vol red dered rawSeed y t vt) (hg : ObsGrid t vt F)
    (hd : ∀ v ∈ vt, dered (dered (red v)) = v ∧ dered v = v) {lam : Mat} {s : HiddenState ζ}
    (ho : (initHidden fuel d A O F lam).Out (.ok s)) :
    Coherent d t vt F s ∧ SchedInv A 1 0 s.sampler.sched := by
  have hF : 0 < F := by
    have hinc := hg.inc
    rw [hg.eq_ext, List.pairwise_cons] at hinc
    exact hinc.1 F (by simp)
  unfold initHidden at ho
  rw [Prog.out_bind_ok] at ho
  obtain ⟨y, hy, ho⟩ := ho
  rw [Prog.out_bind_ok] at ho
  obtain ⟨p, hp, ho⟩ := ho
  simp only [Prog.out_ret, Except.ok.injEq] at ho
  subst ho
  obtain ⟨hpl, -⟩ := forwards_none_pathLike hF hy
  have hf := hpl.fin_eq
  subst hf
  rw [hO] at hp
  rcases aug_out hvol hpl.valid hpl.reduced hg hd hp with ⟨z, h, h1, h2⟩ | ⟨e', dt, y0, x0, x1, h1, -⟩
  · cases h1
    exact ⟨⟨h2.ok, h2.prune, hpl.states⟩, SchedInv.init 0 A⟩
  · cases h1

/-- **C24** for `sample_posterior`: at the start of every hidden-state update the regime sampler holds the pruned current
anchorage.  `other` stands for the parameter and generator updates before it; they return a generator and keep the number of
seeds (C25, C19). -/
theorem C24_posterior {P : Type} {d : ℕ} [NeZero d] {fuel : ℕ} {A : AdaptPar} {C : McmcControls} {O : P → HiddenOps ζ}
    {vol : P → ℕ → ℝ} (hvol : ∀ p y, vol p y ≠ 0) {red dered : ℝ → ℝ} {rawSeed : P → ℝ → ℕ → ℝ → ℝ → Prog ζ} {t vt : List ℝ}
    {F : ℝ} (hO : ∀ p y, (O p).aug y = sampleAug (vol p) red dered (rawSeed p) y t vt) (hg : ObsGrid t vt F)
    (hd : ∀ v ∈ vt, dered (dered (red v)) = v ∧ dered v = v) {other : HiddenState ζ → Prog (P × Mat × List ζ)}
    (hother : ∀ s r, (other s).Out (.ok r) → IsGenerator d r.2.1 ∧ r.2.2.length = s.z.length) (n : ℕ) {s : HiddenState ζ}
    (hs : Coherent d t vt F s) {m k : ℕ} (hsched : SchedInv A m k s.sampler.sched) {s' : HiddenState ζ} {h0 h1 : List ℝ}
    (hz : 0 ∈ h0) (ho : (posteriorLoop (updateJoint fuel d A C O t other) n s).Gen h0 (.ok s') h1) :
    Coherent d t vt F s' := by
  induction n generalizing s m k h0 with
  | zero =>
    simp only [posteriorLoop, Prog.gen_ret, Except.ok.injEq] at ho
    rw [ho.1]; exact hs
  | succ n ih =>
    unfold posteriorLoop at ho
    rw [Prog.gen_bind_ok] at ho
    obtain ⟨s1, h2, hs1, ho⟩ := ho
    unfold updateJoint at hs1
    rw [Prog.gen_bind_ok] at hs1
    obtain ⟨q, h3, hq, hs1⟩ := hs1
    obtain ⟨g1, g2⟩ := hother s q hq.out
    have hs' : Coherent d t vt F ({ s with z := q.2.2 } : HiddenState ζ) :=
      ⟨⟨hs.ok.valid, hs.ok.closed, hs.ok.fin_eq, by simp only [g2]; exact hs.ok.seeds, hs.ok.obs⟩, hs.sync, hs.states⟩
    have hz3 := hq.mono 0 hz
    have := update_gen (hvol q.1) (hO q.1) hg hd g1 hs' hsched hz3 hs1
    obtain ⟨c1, ⟨m', k', c2⟩, -⟩ := this
    exact ih c1 c2 (hs1.mono 0 hz3) ho

/-- The same for a whole run, from the initial draw on. -/
theorem C24_run {P : Type} {d : ℕ} [NeZero d] {fuel : ℕ} {A : AdaptPar} {C : McmcControls} {O : P → HiddenOps ζ}
    {vol : P → ℕ → ℝ} (hvol : ∀ p y, vol p y ≠ 0) {red dered : ℝ → ℝ} {rawSeed : P → ℝ → ℕ → ℝ → ℝ → Prog ζ} {t vt : List ℝ}
    {F : ℝ} (hO : ∀ p y, (O p).aug y = sampleAug (vol p) red dered (rawSeed p) y t vt) (hg : ObsGrid t vt F)
    (hd : ∀ v ∈ vt, dered (dered (red v)) = v ∧ dered v = v) {other : HiddenState ζ → Prog (P × Mat × List ζ)}
    (hother : ∀ s r, (other s).Out (.ok r) → IsGenerator d r.2.1 ∧ r.2.2.length = s.z.length) (n : ℕ) (p0 : P) (lam : Mat)
    {s' : HiddenState ζ} {h1 : List ℝ}
    (ho : ((initHidden fuel d A (O p0) F lam).bind (posteriorLoop (updateJoint fuel d A C O t other) n)).Gen [0] (.ok s') h1) :
    pruneAnchorage s'.h = .ok s'.sampler.state := by
  rw [Prog.gen_bind_ok] at ho
  obtain ⟨s, h2, hs, ho⟩ := ho
  obtain ⟨c1, c2⟩ := C24_init (hvol p0) (hO p0) hg hd hs.out
  exact (C24_posterior hvol hO hg hd hother n c1 c2 (hs.mono 0 (by simp)) ho).sync

/-- **C24** for `maximize_posterior` with thinning 1: the state carried to the next EM iteration is in step with the
sampler. -/
theorem C24_particles_partial {d : ℕ} {t vt : List ℝ} {F : ℝ} {step : HiddenState ζ → Prog (HiddenState ζ)}
    (hstep : ∀ s s', Coherent d t vt F s → (step s).Out (.ok s') → Coherent d t vt F s') (n : ℕ) (hn : 0 < n)
    {s : HiddenState ζ} (hs : Coherent d t vt F s) {r : List (List ζ × Anchorage ℝ ℝ) × MjpAdaptive (Skel ℝ)}
    (ho : (updateParticles 1 step n s).Out (.ok r)) : ∃ s', nextEmState r = .ok s' ∧ Coherent d t vt F s' := by
  have key : ∀ n i s, Coherent d t vt F s → ∀ r, (particlesLoop 1 step (n + 1) i s).Out (.ok r) →
      ∃ s', nextEmState r = .ok s' ∧ Coherent d t vt F s' := by
    intro n
    induction n with
    | zero =>
      intro i s hs r ho
      simp only [particlesLoop, Nat.mod_one, if_true, Prog.out_bind_ok, Prog.out_ret, Except.ok.injEq] at ho
      obtain ⟨s', h1, r', rfl, rfl⟩ := ho
      exact ⟨s', rfl, hstep s s' hs h1⟩
    | succ n ih =>
      intro i s hs r ho
      rw [particlesLoop] at ho
      simp only [Nat.mod_one, if_true, Prog.out_bind_ok, Prog.out_ret, Except.ok.injEq] at ho
      obtain ⟨s1, h1, r', h2, rfl⟩ := ho
      obtain ⟨s', h3, h4⟩ := ih (i + 1) s1 (hstep s s1 hs h1) r' h2
      refine ⟨s', ?_, h4⟩
      rw [← h3]
      unfold nextEmState
      have : r'.1 ≠ [] := by
        intro h; unfold nextEmState at h3; rw [h] at h3; simp at h3
      simp only [List.cons_append, List.nil_append, List.getLast?_cons, List.getLast?_eq_some_getLast this, Option.getD_some]
  obtain ⟨n, rfl⟩ : ∃ m, n = m + 1 := ⟨n - 1, by omega⟩
  unfold updateParticles at ho
  rw [Nat.mul_one] at ho
  exact key n 0 s hs r ho

end

/-! ### Witness for the EM driver -/

/-- A model whose segments always accept, observed at 0, 1, 2, 3. -/
noncomputable def demoOps : HiddenOps Unit where
  aug := fun y => sampleAug (fun _ => 1) id id (fun _ _ _ _ => .ret ()) y [0, 1, 2, 3] [0, 0, 0, 0]
  weight := fun _ _ => 0
  red := id
  flip := fun _ z => .ret (true, z)

/-- Constant regime `x`. -/
def demoState (x : ℕ) (sc : Schedule) : HiddenState Unit :=
  ⟨[(), (), ()], ⟨[0, 1, 2, 3], [x, x, x, x], [0, 0, 0, 0]⟩, ⟨⟨[0], [x], 3⟩, sc⟩⟩

theorem demoGrid : ObsGrid [(0 : ℝ), 1, 2, 3] [0, 0, 0, 0] 3 := ⟨rfl, rfl, rfl, by simp; norm_num, by simp⟩

theorem demoState_ok (x : ℕ) (sc : Schedule) :
    HiddenOk [0, 1, 2, 3] [0, 0, 0, 0] 3 (demoState x sc).z (demoState x sc).h := by
  refine ⟨⟨rfl, rfl, rfl, by simp [demoState]; norm_num, by simp [demoState]⟩, by simp [demoState, Anchorage.Closed],
    by simp [demoState, Anchorage.fin], rfl, ?_⟩
  intro c v h; exact h

theorem demoState_coherent {x : ℕ} (hx : x < 2) (sc : Schedule) :
    Coherent 2 [0, 1, 2, 3] [0, 0, 0, 0] 3 (demoState x sc) := by
  refine ⟨demoState_ok x sc, ?_, by simpa [demoState, Skel.StatesLt] using hx⟩
  simp [demoState, pruneAnchorage, select]

theorem demo_forwards {x : ℕ} (hx : x < 2) : (sampleForwards 2 2 flipGen 3 none).Out (.ok ⟨[0], [x], 3⟩) := by
  obtain ⟨p, hp, hpos, hsum, -⟩ := C12_get_stat flipGen_isGenerator
  unfold sampleForwards
  simp only [hp, Prog.lift, Prog.ret_bind, Prog.out_bind_ok, Prog.out_ret]
  refine ⟨x, ⟨⟨x, hx⟩, ?_, rfl⟩, [(0, x)], ?_, rfl⟩
  · unfold pyChoice
    rw [if_pos ⟨fun j => (hpos j).le, hsum⟩]
    refine ⟨x, ?_, by simp [hx]⟩
    obtain rfl | rfl : x = 0 ∨ x = 1 := by omega
    · simpa [NDist.support] using hpos 0
    · simpa [NDist.support] using hpos 1
  · unfold forwardsLoop
    rw [if_pos (by norm_num), if_pos hx]
    have hr : exitRates 2 flipGen x = [1] := by
      obtain rfl | rfl : x = 0 ∨ x = 1 := by omega
      · simp [exitRates, flipGen, List.range_succ]
      · simp [exitRates, flipGen, List.range_succ]
    rw [hr, Prog.out_bind_ok]
    refine ⟨[((4 : ℝ) : WithTop ℝ)], ?_, ?_⟩
    · rw [Prog.out_mapM'_ok]
      refine .cons ?_ .nil
      unfold drawHold
      rw [if_pos one_pos]
      exact ⟨4, by simp [RDist.support], rfl⟩
    · simp only [argmin, Prog.lift, Prog.ret_bind]
      rw [Prog.out_bind_ok]
      refine ⟨[], ?_, rfl⟩
      unfold forwardsLoop
      rw [if_neg (by norm_num)]; rfl

theorem demo_aug (y : ℕ) : demoOps.aug ⟨[0], [y], 3⟩ =
    .ret ([(), (), ()], ⟨[0, 1, 2, 3], [y, y, y, y], [0, 0, 0, 0]⟩) := by
  have hp : partitionSkeleton (⟨[0], [y], 3⟩ : Skel ℝ) (pySlice [(0 : ℝ), 1, 2, 3] 1 (-1)) =
      [⟨[0], [y], 1⟩, ⟨[0], [y], 1⟩, ⟨[0], [y], 1⟩] := by
    rw [partitionSkeleton_eq, pySlice_interior]
    simp [piecesOf, pieceOf, searchRight, searchLeft, pySlice, pyClip]
    norm_num
  simp [demoOps, sampleAug, hp, sampleAnchors, Prog.mapM', segments, npDiff]

theorem demo_step {x y : ℕ} (hy : y < 2) {A : AdaptPar} {m k : ℕ} {sc : Schedule} (hsc : SchedInv A m k sc) :
    ∃ sc', (∃ m' k', SchedInv A m' k' sc') ∧
      (updateHidden 2 2 A ⟨0, false, 1⟩ demoOps [0, 1, 2, 3] flipGen (demoState x sc)).Out (.ok (demoState y sc')) := by
  obtain ⟨l0, hl0⟩ : ∃ a, lastOf sc.logScale = .ok a := by
    have h1 := hsc.scale; have h2 := hsc.pos
    obtain ⟨l, a, hl⟩ := List.eq_nil_or_concat sc.logScale |>.resolve_left (by
      intro h; rw [h] at h1; simp at h1; omega)
    exact ⟨a, by rw [hl, List.concat_eq_append, lastOf_append]⟩
  obtain ⟨sc', h1, -, hinv⟩ := hsc.step false 1
  refine ⟨sc', ?_, ?_⟩
  · rcases hinv with ⟨-, hi, -⟩ | ⟨-, hi, -⟩
    · exact ⟨_, _, hi⟩
    · exact ⟨_, _, hi⟩
  unfold updateHidden
  simp only [demoState, hl0, Prog.lift, Prog.ret_bind]
  rw [Prog.out_bind_ok]
  refine ⟨(⟨[0], [y], 3⟩, []), ?_, ?_⟩
  · unfold mjpPropose
    rw [Prog.out_bind_ok]
    refine ⟨[], ?_, ?_⟩
    · simp [condTimes, pySlice_interior, Prog.replicate, select]
    · rw [Prog.out_bind_ok]
      refine ⟨[⟨[0], [y], 3⟩], ?_, ?_⟩
      · have : partitionSkeleton (⟨[0], [x], 3⟩ : Skel ℝ) [] = [⟨[0], [x], 3⟩] := by
          rw [partitionSkeleton_eq]
          simp [piecesOf, pieceOf, searchRight, searchLeft, pySlice, pyClip]
        rw [this]
        simp only [mutatePartition, Prog.out_bind_ok]
        exact ⟨_, demo_forwards hy, rfl⟩
      · simp [pastePartition, Prog.lift, select, npCumsum, cumsumFrom]
  · unfold updateHiddenWith
    rw [demo_aug]
    have hsplit : ∀ w : ℕ, splitHidden [(), (), ()] (⟨[0, 1, 2, 3], [w, w, w, w], [0, 0, 0, 0]⟩ : Anchorage ℝ ℝ) [] =
        .ok ([[(), (), ()]], [⟨[0, 1, 2, 3], [w, w, w, w], [0, 0, 0, 0]⟩]) := by
      intro w
      simp [splitHidden, breakRows, anchPiece, pyGet, pySlice, pyClip, bind, Except.bind, pure, Except.pure, List.mapM_cons]
    simp only [Prog.ret_bind, hsplit, Prog.lift]
    rw [Prog.out_bind_ok]
    refine ⟨[(true, [(), (), ()], ⟨[0, 1, 2, 3], [y, y, y, y], [0, 0, 0, 0]⟩)], ?_, ?_⟩
    · rw [Prog.out_mapM'_ok]
      refine .cons ?_ .nil
      simp only [updateHiddenSection, Bool.false_eq_true, if_false, sampleTwocoin, twocoinLoop]
      rw [Prog.out_bind_ok]
      refine ⟨((true, false, [(), (), ()]), ([(), (), ()], [(), (), ()])), ?_, by simp⟩
      refine ⟨0, mem_uniform01.2 ⟨le_rfl, one_pos⟩, ?_⟩
      beta_reduce
      rw [if_pos (show npLogLt 0 _ from Or.inl rfl)]
      simp [flipHiddenCoins, segments, npDiff, demoOps, Prog.mapM']
    · simp [pasteHidden, pruneAnchorage, select, npMean, MjpAdaptive.adapt, h1, bind, Except.bind, pure, Except.pure]

/-- **C24** fails for `maximize_posterior` with thinning 2 (the default): the anchorage carried to the next iteration is the
last one kept, the sampler has moved on.  Witness: a coherent start from which two hidden-state updates are possible that
leave anchorage and sampler in different regimes. -/
theorem C24_mcem_violated (A : AdaptPar) : ∃ (s : HiddenState Unit) (r : List (List Unit × Anchorage ℝ ℝ) × MjpAdaptive (Skel ℝ))
    (s' : HiddenState Unit), Coherent 2 [0, 1, 2, 3] [0, 0, 0, 0] 3 s ∧
      (updateParticles 2 (updateHidden 2 2 A ⟨0, false, 1⟩ demoOps [0, 1, 2, 3] flipGen) 1 s).Out (.ok r) ∧
      nextEmState r = .ok s' ∧ pruneAnchorage s'.h = .ok ⟨[0], [1], 3⟩ ∧ s'.sampler.state = ⟨[0], [0], 3⟩ := by
  obtain ⟨sc1, ⟨m1, k1, i1⟩, h1⟩ := demo_step (x := 0) (y := 1) (by norm_num) (SchedInv.init 0 A)
  obtain ⟨sc2, -, h2⟩ := demo_step (x := 1) (y := 0) (by norm_num) i1
  refine ⟨demoState 0 (.init 0 A), ([((demoState 1 sc1).z, (demoState 1 sc1).h)], (demoState 0 sc2).sampler),
    ⟨(demoState 1 sc1).z, (demoState 1 sc1).h, (demoState 0 sc2).sampler⟩, demoState_coherent (by norm_num) _, ?_, rfl, ?_, rfl⟩
  · unfold updateParticles
    simp only [particlesLoop, Prog.out_bind_ok, Prog.out_ret, Except.ok.injEq]
    exact ⟨_, h1, _, ⟨_, h2, _, rfl, rfl⟩, by simp⟩
  · simp [demoState, pruneAnchorage, select]

/-- Hypotheses of C23 and C24 are met by a run of the same model. -/
example (A : AdaptPar) : ∃ s s' : HiddenState Unit, Coherent 2 [0, 1, 2, 3] [0, 0, 0, 0] 3 s ∧ SchedInv A 1 0 s.sampler.sched ∧
    (updateHidden 2 2 A ⟨0, false, 1⟩ demoOps [0, 1, 2, 3] flipGen s).Out (.ok s') ∧
    s.sampler.state ≠ s'.sampler.state := by
  obtain ⟨sc1, -, h1⟩ := demo_step (x := 0) (y := 1) (by norm_num) (SchedInv.init 0 A)
  exact ⟨_, _, demoState_coherent (by norm_num) _, SchedInv.init 0 A, h1, by simp [demoState]⟩

/-! ## C26 -/

section
variable {ζ : Type}

/-- **C26** fails on grids of two or three times: `propose` receives `mod.t[1:-1]`, slices it again, and asks for a negative
number of uniforms.  Every update raises ValueError. -/
theorem C26_violated {d : ℕ} [NeZero d] {fuel : ℕ} {A : AdaptPar} {C : McmcControls} {O : HiddenOps ζ} {t : List ℝ}
    (h3 : t.length ≤ 3) {lam : Mat} {s : HiddenState ζ} (hsched : s.sampler.sched.logScale ≠ []) {r : Res (HiddenState ζ)}
    (ho : (updateHidden fuel d A C O t lam s).Out r) : r = .error .value := by
  obtain ⟨sc, hsc⟩ : ∃ sc, lastOf s.sampler.sched.logScale = .ok sc := by
    obtain ⟨l, a, hl⟩ := List.eq_nil_or_concat s.sampler.sched.logScale |>.resolve_left hsched
    exact ⟨a, by rw [hl, List.concat_eq_append, lastOf_append]⟩
  unfold updateHidden at ho
  simp only [hsc, Prog.lift, Prog.ret_bind] at ho
  rw [Prog.out_bind] at ho
  have hlen : (pySlice t 1 (-1)).length < 2 := by rw [pySlice_interior]; simp; omega
  rcases ho with ⟨p, hp, ho⟩ | ⟨e, he, rfl⟩
  · have := C11_short_grid_error hlen hp; cases this
  · have := C11_short_grid_error hlen he; cases this; rfl

/-- A grid of three times, observed at 0, 1 and 2. -/
example : ObsGrid [(0 : ℝ), 1, 2] [5, 6, 7] 2 ∧ ([0, 1, 2] : List ℝ).length ≤ 3 :=
  ⟨⟨rfl, rfl, rfl, by simp, by simp⟩, by simp⟩

/-- **C26** for grids of at least four times and generic draws: an update raises nothing of its own.  (`fuel` marks the
recursion budget of the model, `budget` the documented two-coin limit; the rest are exceptions of a Poisson coin or the seed
sampler.) -/
theorem C26_partial {d : ℕ} [NeZero d] (h2 : 2 ≤ d) {fuel : ℕ} {A : AdaptPar} {C : McmcControls} {O : HiddenOps ζ} {vol : ℕ → ℝ}
    (hvol : ∀ y, vol y ≠ 0) {red dered : ℝ → ℝ} {rawSeed : ℝ → ℕ → ℝ → ℝ → Prog ζ} {t vt : List ℝ} {F : ℝ}
    (hO : ∀ y, O.aug y = sampleAug vol red dered rawSeed y t vt) (hg : ObsGrid t vt F) (h4 : 4 ≤ t.length)
    (hd : ∀ v ∈ vt, dered (dered (red v)) = v ∧ dered v = v) {lam : Mat} (hlam : IsGenerator d lam) {s : HiddenState ζ}
    (hs : Coherent d t vt F s) {m k : ℕ} (hsched : SchedInv A m k s.sampler.sched) {e : PyErr} {h1 : List ℝ}
    (ho : (updateHidden fuel d A C O t lam s).Gen [0] (.error e) h1) :
    e = .fuel ∨ e = .budget ∨ (∃ q x, (O.flip q x).Out (.error e)) ∨ ∃ dt y0 x0 x1, (rawSeed dt y0 x0 x1).Out (.error e) := by
  rcases update_gen hvol hO hg hd hlam hs hsched (by simp) ho with ⟨sc, h2', he⟩ | h
  · left
    obtain ⟨sk, hsk, skv, skr, skf, sks⟩ := prune_sound hs.ok.valid hs.ok.closed
    have hst : sk = s.sampler.state := by have := hs.sync; rw [hsk] at this; exact Except.ok.inj this
    subst hst
    have hinc := hg.inc
    rw [hg.eq_ext, List.pairwise_cons, List.pairwise_append] at hinc
    rw [pySlice_interior] at he
    refine propose_error h2 hlam skv hs.states hinc.2.1 (fun a ha => ?_) (by simp; omega) (by simp) he
    rw [skf, hs.ok.fin_eq]
    exact ⟨(hinc.1 a (by simp [ha])).le, (hinc.2.2.2 a ha F (by simp)).le⟩
  · exact .inr h

/-- Hypotheses of `C26_partial` are met by the demonstration model. -/
example (A : AdaptPar) : ∃ s : HiddenState Unit, ObsGrid [(0 : ℝ), 1, 2, 3] [0, 0, 0, 0] 3 ∧ IsGenerator 2 flipGen ∧
    Coherent 2 [0, 1, 2, 3] [0, 0, 0, 0] 3 s ∧ SchedInv A 1 0 s.sampler.sched :=
  ⟨demoState 0 (.init 0 A), demoGrid, flipGen_isGenerator, demoState_coherent (by norm_num) _, SchedInv.init 0 A⟩

end

end Ctb
