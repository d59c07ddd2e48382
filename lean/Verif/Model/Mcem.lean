import Verif.Basic.Prog
import Mathlib.Analysis.SpecialFunctions.Pow.Real
import Mathlib.Data.List.Basic

/-!
# Model of the Monte Carlo EM drivers

Files: ito/mcem.py, switching/mcem.py.  `θ` is the type of parameters, `π` that of particles.  Both packages share the shape of the code;
`switching` also carries the jump-rate matrix `lam` and the regime sampler, whose state `ς` is mutated by every update.
-/

namespace Ctb

variable {θ π Λ ς : Type}

/-- The loop of `update_particles`, ito/mcem.py:66-74: `i` counts up, `n` iterations are left. -/
def emParticlesLoop (upd : π → Prog π) (thin : ℕ) : ℕ → ℕ → π → Prog (List π × π)
  | 0, _, z => .ret ([], z)
  | n + 1, i, z => (upd z).bind fun z' => (emParticlesLoop upd thin n (i + 1) z').bind fun r =>
    .ret (if i % thin = 0 then (z' :: r.1, r.2) else r)

/-- `update_particles`, ito/mcem.py:66-74, switching/mcem.py:85-94 (there a particle is a pair `(z, h)`, and the sampler's state goes along). -/
def emParticles (upd : π → Prog π) (z : π) (nParticles thin : ℕ) : Prog (List π × π) :=
  emParticlesLoop upd thin (nParticles * thin) 0 z

/-- Next particle count, ito/mcem.py:41, switching/mcem.py:49. -/
noncomputable def nextParticles (lr : ℝ) (n : ℕ) : ℕ := ⌊((n : ℝ) ^ (1 / lr) + 1) ^ lr⌋₊

/-- `zz[-1]` -/
def lastParticle (zz : List π) : Prog π := match zz.getLast? with
  | some z => .ret z
  | none => .err .index

/-! ## `ito` -/

/-- `iterate_em`, ito/mcem.py:48-54: `upd thi` is `mcmc.update_sde(thi, ...)`, `opt thi zz` is `update_param(thi, zz, ...)`. -/
def itoIterate (upd : θ → π → Prog π) (opt : θ → List π → Prog (θ × ℝ)) (thin : ℕ) (thi : θ) (z : π) (n : ℕ) :
    Prog (ℝ × θ × List π) :=
  (emParticles (upd thi) z n thin).bind fun zz => (opt thi zz.1).bind fun r => .ret (r.2, r.1, zz.1)

/-- The loop of `maximize_posterior`, ito/mcem.py:39-45: the first `k` values it yields (fewer if it stops).  `prev` is `obj_nil`, `none` is
`-inf`. -/
noncomputable def itoEmLoop (iter : θ → π → ℕ → Prog (ℝ × θ × List π)) (init : θ) (lr ftol : ℝ) :
    ℕ → List π → ℕ → Option ℝ → Prog (List (ℝ × θ × List π))
  | 0, _, _, _ => .ret []
  | k + 1, zz, n, prev => (lastParticle zz).bind fun z => (iter init z n).bind fun r =>
    if ∃ p, prev = some p ∧ |r.1 - p| < ftol then .ret [r]
    else (itoEmLoop iter init lr ftol k r.2.2 (nextParticles lr n) (some r.1)).bind fun l => .ret (r :: l)

/-- `maximize_posterior`, ito/mcem.py:33-45; `aug` is `mod.sample_aug(init_thi, ...)`. -/
noncomputable def itoEm (aug : Prog π) (upd : θ → π → Prog π) (opt : θ → List π → Prog (θ × ℝ)) (thin : ℕ) (init : θ) (lr ftol : ℝ)
    (k : ℕ) : Prog (List (ℝ × θ × List π)) :=
  aug.bind fun z => itoEmLoop (itoIterate upd opt thin) init lr ftol k [z] 1 none

/-! ## `switching` -/

/-- What an iteration of the switching EM yields, and the state of the regime sampler after it. -/
structure SwEm (θ Λ π ς : Type) where
  obj : ℝ
  thi : θ
  lam : Λ
  zz : List π
  samp : ς

/-- `iterate_em`, switching/mcem.py:56-64: `upd thi lam` is `mcmc.update_hidden`, `opt` is `update_param`, `gen` is `update_generator`. -/
noncomputable def swIterate (upd : θ → Λ → π × ς → Prog (π × ς)) (opt : θ → List π → Prog (θ × ℝ)) (gen : List π → Prog (Λ × ℝ)) (thin : ℕ)
    (thi : θ) (lam : Λ) (z : π) (n : ℕ) (s : ς) : Prog (SwEm θ Λ π ς) :=
  (emParticles (upd thi lam) (z, s) n thin).bind fun q =>
  (opt thi (q.1.map Prod.fst)).bind fun r => (gen (q.1.map Prod.fst)).bind fun g =>
  .ret ⟨r.2 + g.2, r.1, g.1, q.1.map Prod.fst, q.2.2⟩

/-- The loop of `maximize_posterior`, switching/mcem.py:47-53. -/
noncomputable def swEmLoop (iter : θ → Λ → π → ℕ → ς → Prog (SwEm θ Λ π ς)) (lr ftol : ℝ) :
    ℕ → θ → Λ → List π → ς → ℕ → Option ℝ → Prog (List (SwEm θ Λ π ς))
  | 0, _, _, _, _, _, _ => .ret []
  | k + 1, thi, lam, zz, s, n, prev => (lastParticle zz).bind fun z => (iter thi lam z n s).bind fun r =>
    if ∃ p, prev = some p ∧ |r.obj - p| < ftol then .ret [r]
    else (swEmLoop iter lr ftol k r.thi r.lam r.zz r.samp (nextParticles lr n) (some r.obj)).bind fun l => .ret (r :: l)

/-- `maximize_posterior`, switching/mcem.py:36-53, from the initial draws on (`start`: the first particle and the regime sampler). -/
noncomputable def swEm (start : Prog (π × ς)) (upd : θ → Λ → π × ς → Prog (π × ς)) (opt : θ → List π → Prog (θ × ℝ))
    (gen : List π → Prog (Λ × ℝ)) (thin : ℕ) (thi : θ) (lam : Λ) (lr ftol : ℝ) (k : ℕ) : Prog (List (SwEm θ Λ π ς)) :=
  start.bind fun q => swEmLoop (swIterate upd opt gen thin) lr ftol k thi lam [q.1] q.2 1 none

/-! ## Optimisation bounds -/

/-- `min(abs(lb - ub) / 2, buffer)`; `none` is an infinite bound. -/
noncomputable def bufferWidth (buffer : ℝ) : Option ℝ → Option ℝ → ℝ
  | some l, some u => min (|l - u| / 2) buffer
  | _, _ => buffer

/-- `buffer_bounds`, ito/mcem.py:91-96, switching/mcem.py:124-129.  Arrays of bounds are lists of `Option ℝ` (`none`: `-inf` below, `inf`
above).  Lists of different lengths raise ValueError (one-element arrays, which numpy would broadcast, are not treated apart). -/
noncomputable def bufferBounds (lb ub : Option (List (Option ℝ))) (nDim : ℕ) (buffer : ℝ) : Res (List (Option ℝ) × List (Option ℝ)) :=
  let lb := lb.getD (List.replicate nDim none)
  let ub := ub.getD (List.replicate nDim none)
  if lb.length ≠ ub.length then .error .value
  else
    let d := List.zipWith (bufferWidth buffer) lb ub
    .ok (List.zipWith (fun l d => l.map (· + d)) lb d, List.zipWith (fun u d => u.map (· - d)) ub d)

end Ctb
