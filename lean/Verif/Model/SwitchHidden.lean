import Verif.Model.MjpSampling
import Verif.Model.Adapt
import Verif.Model.Bfactories
import Verif.Model.SdePaths

/-!
# Model of `ctbayes/switching`: anchorages, augmentation and the hidden-state update

Files: switching/types.py, switching/static.py (`sample_aug`), switching/mcmc.py (lines 1-55, 153-246),
switching/mcem.py (`update_particles` and the loop around it).

`ζ` is the type of path seeds.  The parts of a model that matter only as black boxes here are parameters: `vol`
(`eval_vol(thi, ·)`), `red`/`dered` (`reduce`, `dereduce`), the raw seed sampler, the hidden weight and the Poisson coin of
one segment.
-/

namespace Ctb

variable {K : Type} [Field K] [LinearOrder K] {V ζ : Type}

/-- `class Anchorage(NamedTuple)`, switching/types.py:7-10. -/
structure Anchorage (K V : Type) where
  t : List K
  yt : List ℕ
  vt : List V

/-- `prune_anchorage`, switching/types.py:13-16.  A mask of the wrong length and `h.t[-1]` of an empty array raise
IndexError. -/
def pruneAnchorage (h : Anchorage K V) : Res (Skel K) :=
  let keep := true :: List.zipWith (fun a b => decide (a ≠ b)) h.yt.tail h.yt.dropLast
  if h.t.length ≠ keep.length ∨ h.yt.length ≠ keep.length then .error .index
  else match h.t.getLast? with
    | none => .error .index
    | some f => .ok ⟨select h.t keep, select h.yt keep, f⟩

/-! ## Splitting and pasting -/

/-- `break_r`, switching/mcmc.py:226. -/
def breakRows (t new_t : List K) : List ℤ :=
  0 :: ((((pySlice t 1 (-1)).zipIdx.filter fun p => decide (p.1 ∈ new_t)).map fun p => (p.2 : ℤ) + 1) ++
    [(t.length : ℤ) - 1])

/-- One element of `h_part`, switching/mcmc.py:227-228. -/
def anchPiece (h : Anchorage K V) (r : ℤ × ℤ) : Res (Anchorage K V) :=
  match pyGet h.t r.1 with
  | none => .error .index
  | some t0 => .ok ⟨(pySlice h.t r.1 (r.2 + 1)).map (· - t0), pySlice h.yt r.1 (r.2 + 1), pySlice h.vt r.1 (r.2 + 1)⟩

/-- `split_hidden`, switching/mcmc.py:223-230. -/
def splitHidden (z : List ζ) (h : Anchorage K V) (new_t : List K) : Res (List (List ζ) × List (Anchorage K V)) := do
  let br := breakRows h.t new_t
  let rr := br.zip br.tail
  let hp ← rr.mapM (anchPiece h)
  pure (rr.map fun r => pySlice z r.1 r.2, hp)

/-- Loop body of `paste_hidden`, switching/mcmc.py:239. -/
def pasteStep (h h' : Anchorage K V) : Res (Anchorage K V) :=
  match h.t.getLast? with
  | none => .error .index
  | some f => .ok ⟨h.t ++ h'.t.tail.map (· + f), h.yt ++ h'.yt.tail, h.vt ++ h'.vt.tail⟩

/-- `paste_hidden`, switching/mcmc.py:233-240. -/
def pasteHidden (zp : List (List ζ)) (hp : List (Anchorage K V)) : Res (List ζ × Anchorage K V) :=
  match hp with
  | [] => .error .index
  | h :: hs => do
    let h' ← hs.foldlM pasteStep h
    pure (zp.flatten, h')

/-! ## Augmentation -/

/-- Segments between neighbouring anchors, as enumerated by `gen_normops`, switching/static.py:42-43:
`zip(np.diff(t), yt[:-1], xt, xt[1:])`. -/
def segments (t : List ℝ) (yt : List ℕ) (xt : List ℝ) : List (ℝ × ℕ × ℝ × ℝ) :=
  (npDiff t).zip (yt.dropLast.zip (xt.zip xt.tail))

/-- `sample_anchors`, switching/static.py:60-68. -/
noncomputable def sampleAnchors (vol : ℕ → ℝ) (p : Skel ℝ) (initX finX : ℝ) : Prog (List ℝ) :=
  if p.t.length = 1 then .ret [initX]
  else
    let s := npCumsum (List.zipWith (fun d y => d * vol y ^ 2) (npDiff (p.t ++ [p.fin])) p.xt)
    match s.getLast? with
    | none => .err .index
    | some sl => (sampleBrownbr s.dropLast sl initX finX).bind fun xt => .ret (initX :: xt)

/-- `sample_aug`, switching/static.py:46-58.  `vt[-1]`, `t[-1]`, `y.xt[-1]` of empty arrays raise IndexError; `np.hstack([])`
raises ValueError.  `rawSeed dt y0 x0 x1` is `sample_raw_seed` for the segment with these ends. -/
noncomputable def sampleAug (vol : ℕ → ℝ) (red dered : ℝ → ℝ) (rawSeed : ℝ → ℕ → ℝ → ℝ → Prog ζ) (y : Skel ℝ)
    (t vt : List ℝ) : Prog (List ζ × Anchorage ℝ ℝ) :=
  let xt := vt.map red
  let yp := partitionSkeleton y (pySlice t 1 (-1))
  (Prog.mapM' (fun q => (sampleAnchors vol q.1 q.2.1 q.2.2).bind fun l => .ret (l.map dered))
    (yp.zip (xt.zip xt.tail))).bind fun xs =>
  match vt.getLast? with
  | none => .err .index
  | some vl =>
    if (t.zip yp).isEmpty then .err .value
    else match t.getLast?, y.xt.getLast? with
      | some tl, some yl =>
        let tt := ((t.zip yp).map fun q => q.2.t.map (q.1 + ·)).flatten ++ [tl]
        let ytt := (yp.map Skel.xt).flatten ++ [yl]
        let vtt := (xs.flatten ++ [vl]).map dered
        (Prog.mapM' (fun q => rawSeed q.1 q.2.1 q.2.2.1 q.2.2.2) (segments tt ytt (vtt.map red))).bind fun z =>
        .ret (z, ⟨tt, ytt, vtt⟩)
      | _, _ => .err .index

/-! ## The hidden-state update -/

/-- What the hidden-state update needs of a model at fixed parameters. -/
structure HiddenOps (ζ : Type) where
  /-- `mod.sample_aug(thi, ·, mod.t, mod.vt, ome)` -/
  aug : Skel ℝ → Prog (List ζ × Anchorage ℝ ℝ)
  /-- `eval_hidden_weight(thi, ·, ·, mod)` -/
  weight : List ζ → Anchorage ℝ ℝ → ℝ
  /-- `reduce` -/
  red : ℝ → ℝ
  /-- `flip_poisson_coin` on one segment -/
  flip : ℝ × ℕ × ℝ × ℝ → ζ → Prog (Bool × ζ)

/-- `flip_hidden_coins`, switching/mcmc.py:214-220.  `zip(*[])` cannot be unpacked: ValueError. -/
noncomputable def flipHiddenCoins (O : HiddenOps ζ) (z : List ζ) (h : Anchorage ℝ ℝ) : Prog (Bool × List ζ) :=
  let l := z.zip (segments h.t h.yt (h.vt.map O.red))
  if l.isEmpty then .err .value
  else (Prog.mapM' (fun q => O.flip q.2 q.1) l).bind fun r => .ret (r.all Prod.fst, r.map Prod.snd)

/-- `Controls` fields used here, switching/mcmc.py:27-32, and the default `max_props` of the two-coin algorithms. -/
structure McmcControls where
  prPortkey : ℝ
  precoin : Bool
  maxProps : ℕ

open scoped Classical in
/-- `flip_hidden_precoin` given the two weights, switching/mcmc.py:209-211; also the last line of `flip_param_precoin`,
switching/mcmc.py:125. -/
noncomputable def flipPrecoin (wPrime wNil : ℝ) : Prog Bool :=
  .real (.uniform 0 1) fun u => .ret (decide (npLogLt u (wPrime - logaddexp wPrime wNil)))

/-- `update_hidden_section`, switching/mcmc.py:173-195.  The two `coin(z, h)` generators are state machines on the pair of
their current seeds. -/
noncomputable def updateHiddenSection (C : McmcControls) (O : HiddenOps ζ) (zN : List ζ) (hN : Anchorage ℝ ℝ)
    (zP : List ζ) (hP : Anchorage ℝ ℝ) : Prog (Bool × List ζ × Anchorage ℝ ℝ) :=
  let c1 : Coin (List ζ × List ζ) (List ζ) := fun s => (flipHiddenCoins O s.1 hP).bind fun r => .ret (r.1, r.2, (r.2, s.2))
  let c2 : Coin (List ζ × List ζ) (List ζ) := fun s => (flipHiddenCoins O s.2 hN).bind fun r => .ret (r.1, r.2, (s.1, r.2))
  let finish : Verdict (List ζ × List ζ) (List ζ) → Prog (Bool × List ζ × Anchorage ℝ ℝ) := fun v =>
    .ret (v.1.1, v.1.2.2, if v.1.1 then hP else hN)
  if C.precoin then
    (flipPrecoin (O.weight zP hP) (O.weight zN hN)).bind fun ok =>
    if ok then (sampleTwocoin 0 0 c1 c2 C.prPortkey zN C.maxProps (zP, zN)).bind finish
    else .ret (false, zN, hN)
  else (sampleTwocoin (O.weight zP hP) (O.weight zN hN) c1 c2 C.prPortkey zN C.maxProps (zP, zN)).bind finish

/-- State of the chain that `update_hidden` reads and writes: seeds, anchorage, regime sampler. -/
structure HiddenState (ζ : Type) where
  z : List ζ
  h : Anchorage ℝ ℝ
  sampler : MjpAdaptive (Skel ℝ)

/-- The part of `update_hidden` after the proposal `y'`, `tc` was made, switching/mcmc.py:158-170.  The workers' generators
are independent children of `ome`; the sections are run in order. -/
noncomputable def updateHiddenWith (A : AdaptPar) (C : McmcControls) (O : HiddenOps ζ) (s : HiddenState ζ)
    (y' : Skel ℝ) (tc : List ℝ) : Prog (HiddenState ζ) :=
  (O.aug y').bind fun p =>
  (Prog.lift (splitHidden s.z s.h tc)).bind fun nil =>
  (Prog.lift (splitHidden p.1 p.2 tc)).bind fun prime =>
  (Prog.mapM' (fun q => updateHiddenSection C O q.1.1 q.1.2 q.2.1 q.2.2)
    ((nil.1.zip nil.2).zip (prime.1.zip prime.2))).bind fun acc =>
  if acc.isEmpty then .err .value
  else
    (Prog.lift (pasteHidden (acc.map fun a => a.2.1) (acc.map fun a => a.2.2))).bind fun new =>
    (Prog.lift (pruneAnchorage new.2)).bind fun y =>
    (Prog.lift (npMean (acc.map fun a => if a.1 then 1 else 0))).bind fun m =>
    (Prog.lift (s.sampler.adapt A y m)).bind fun sampler => .ret ⟨new.1, new.2, sampler⟩

/-- `update_hidden`, switching/mcmc.py:153-170; `obsT` is `mod.t`, `lam` the generator. -/
noncomputable def updateHidden (fuel d : ℕ) [NeZero d] (A : AdaptPar) (C : McmcControls) (O : HiddenOps ζ)
    (obsT : List ℝ) (lam : Mat) (s : HiddenState ζ) : Prog (HiddenState ζ) :=
  (Prog.lift (lastOf s.sampler.sched.logScale)).bind fun sc =>
  (mjpPropose fuel d sc s.sampler.state lam (pySlice obsT 1 (-1))).bind fun r =>
  updateHiddenWith A C O s r.1 r.2

/-! ## Drivers -/

/-- Start of `sample_posterior` and `maximize_posterior`, switching/mcmc.py:39-43, switching/mcem.py:41-43: draw a regime
path, augment it, start the regime sampler at it. -/
noncomputable def initHidden (fuel d : ℕ) [NeZero d] (A : AdaptPar) (O : HiddenOps ζ) (finT : ℝ) (lam : Mat) :
    Prog (HiddenState ζ) :=
  (sampleForwards fuel d lam finT none).bind fun y =>
  (O.aug y).bind fun p => .ret ⟨p.1, p.2, .init A y⟩

/-- `update_joint`, switching/mcmc.py:58-67, one iteration of the loop of `sample_posterior`, seen from the hidden state: a new generator
and new parameters (`other`, which may also replace the seeds) and then `update_hidden`. -/
noncomputable def updateJoint {P : Type} (fuel d : ℕ) [NeZero d] (A : AdaptPar) (C : McmcControls) (O : P → HiddenOps ζ)
    (obsT : List ℝ) (other : HiddenState ζ → Prog (P × Mat × List ζ)) (s : HiddenState ζ) : Prog (HiddenState ζ) :=
  (other s).bind fun r => updateHidden fuel d A C (O r.1) obsT r.2.1 { s with z := r.2.2 }

/-- The first `n` iterations of the loop of `sample_posterior` or `resume_sampling`, switching/mcmc.py:44-46, 53-55. -/
noncomputable def posteriorLoop (step : HiddenState ζ → Prog (HiddenState ζ)) : ℕ → HiddenState ζ → Prog (HiddenState ζ)
  | 0, s => .ret s
  | n + 1, s => (step s).bind fun s' => posteriorLoop step n s'

/-- Loop of `update_particles`, switching/mcem.py:89-94: `n` remaining steps, `i` done so far, thinning `k`.  Returns the kept
(seeds, anchorage) pairs and the regime sampler as it is left. -/
noncomputable def particlesLoop (k : ℕ) (step : HiddenState ζ → Prog (HiddenState ζ)) :
    ℕ → ℕ → HiddenState ζ → Prog (List (List ζ × Anchorage ℝ ℝ) × MjpAdaptive (Skel ℝ))
  | 0, _, s => .ret ([], s.sampler)
  | n + 1, i, s =>
    (step s).bind fun s' =>
    (particlesLoop k step n (i + 1) s').bind fun r =>
    .ret ((if i % k = 0 then [(s'.z, s'.h)] else []) ++ r.1, r.2)

/-- `update_particles`, switching/mcem.py:85-94. -/
noncomputable def updateParticles (k : ℕ) (step : HiddenState ζ → Prog (HiddenState ζ)) (nParticles : ℕ)
    (s : HiddenState ζ) : Prog (List (List ζ × Anchorage ℝ ℝ) × MjpAdaptive (Skel ℝ)) :=
  particlesLoop k step (nParticles * k) 0 s

/-- Hidden state at the start of the next EM iteration, switching/mcem.py:48: `zz[-1], hh[-1]`, with the same sampler. -/
def nextEmState (r : List (List ζ × Anchorage ℝ ℝ) × MjpAdaptive (Skel ℝ)) : Res (HiddenState ζ) :=
  match r.1.getLast? with
  | none => .error .index
  | some p => .ok ⟨p.1, p.2, r.2⟩

end Ctb
