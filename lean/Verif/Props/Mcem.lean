import Verif.Lemmas.Mcem

set_option linter.unusedSectionVars false

/-! # C63-C66: Monte Carlo EM drivers -/

namespace Ctb

variable {θ π Λ ς : Type}

/-! ## C64 -/

/-- `update_particles` makes `n_particles * n_thin` updates of the chain and stores the states after update `1`, `1 + n_thin`, ...: exactly
`n_particles` of them, in order. -/
theorem C64_particles {upd : π → Prog π} {z : π} {n thin : ℕ} (ht : 0 < thin) {zz : List π} {zf : π}
    (h : (emParticles upd z n thin).Out (.ok (zz, zf))) :
    ∃ chain : ℕ → π, chain 0 = z ∧ (∀ k < n * thin, (upd (chain k)).Out (.ok (chain (k + 1)))) ∧ zf = chain (n * thin) ∧
      zz.length = n ∧ ∀ (j : ℕ) (hj : j < zz.length), zz[j] = chain (j * thin + 1) := by
  obtain ⟨c, c0, c1, c2, c3⟩ := emParticlesLoop_chain upd thin (n * thin) 0 z h
  rw [filter_thin ht, List.map_map] at c3
  refine ⟨c, c0, c1, c2, by simp [c3], fun j hj => ?_⟩
  subst c3
  simp

/-- Every chain can be what happened. -/
theorem C64_reachable {upd : π → Prog π} {n thin : ℕ} {chain : ℕ → π}
    (hc : ∀ k < n * thin, (upd (chain k)).Out (.ok (chain (k + 1)))) :
    ∃ r, (emParticles upd (chain 0) n thin).Out (.ok r) := by
  unfold emParticles
  generalize n * thin = m at hc
  have : ∀ (i : ℕ) (c : ℕ → π), (∀ k < m, (upd (c k)).Out (.ok (c (k + 1)))) → ∃ r, (emParticlesLoop upd thin m i (c 0)).Out (.ok r) := by
    clear hc
    induction m with
    | zero => exact fun i c _ => ⟨_, rfl⟩
    | succ m ih =>
      intro i c hc
      obtain ⟨r, hr⟩ := ih (i + 1) (fun k => c (k + 1)) fun k hk => hc (k + 1) (by omega)
      refine ⟨if i % thin = 0 then (c 1 :: r.1, r.2) else r, ?_⟩
      rw [emParticlesLoop, Prog.out_bind_ok]
      refine ⟨_, hc 0 (by omega), ?_⟩
      rw [Prog.out_bind_ok]
      exact ⟨r, hr, rfl⟩
  exact this 0 chain hc

/-- Without thinning interval nothing is stored. -/
theorem C64_no_thinning (upd : π → Prog π) (z : π) (n : ℕ) : emParticles upd z n 0 = .ret ([], z) := by
  simp [emParticles, emParticlesLoop]

/-- Counting up, three particles, thinning 2: the states 1, 3, 5. -/
example : (emParticles (fun n : ℕ => .ret (n + 1)) 0 3 2).Out (.ok ([1, 3, 5], 6)) := by
  simp [emParticles, emParticlesLoop]

/-! ## C63 -/

/-- With `learning_rate ≥ 1` the next count is larger. -/
theorem C63_next {lr : ℝ} (h : 1 ≤ lr) (n : ℕ) : n < nextParticles lr n := nextParticles_lt h n

/-- The counts of successive iterations increase strictly and tend to infinity. -/
theorem C63_grows {lr : ℝ} (h : 1 ≤ lr) : StrictMono (fun j => (nextParticles lr)^[j] 1) ∧
    Filter.Tendsto (fun j => (nextParticles lr)^[j] 1) Filter.atTop Filter.atTop := by
  have hm : StrictMono (fun j => (nextParticles lr)^[j] 1) := by
    apply strictMono_nat_of_lt_succ
    intro j
    rw [Function.iterate_succ_apply']
    exact nextParticles_lt h _
  exact ⟨hm, hm.tendsto_atTop⟩

theorem itoEmLoop_spec {iter : θ → π → ℕ → Prog (ℝ × θ × List π)} {init : θ} {lr ftol : ℝ} {k : ℕ} {zz : List π} {n : ℕ}
    {prev : Option ℝ} {l : List (ℝ × θ × List π)} (h : (itoEmLoop iter init lr ftol k zz n prev).Out (.ok l)) :
    ∀ (j : ℕ) (hj : j < l.length), ∃ z, (if j = 0 then zz else (l[j - 1]'(by omega)).2.2).getLast? = some z ∧
      (iter init z ((nextParticles lr)^[j] n)).Out (.ok l[j]) := by
  induction k generalizing zz n prev l with
  | zero =>
    simp only [itoEmLoop, Prog.out_ret, Except.ok.injEq] at h
    subst h
    simp
  | succ k ih =>
    simp only [itoEmLoop, Prog.out_bind_ok] at h
    obtain ⟨z, h1, r, h2, h3⟩ := h
    have hz : zz.getLast? = some z := by
      unfold lastParticle at h1
      split at h1 <;> simp_all
    split_ifs at h3 with hs
    · simp only [Prog.out_ret, Except.ok.injEq] at h3
      subst h3
      intro j hj
      have : j = 0 := by simpa using hj
      subst this
      exact ⟨z, hz, h2⟩
    · simp only [Prog.out_bind_ok, Prog.out_ret, Except.ok.injEq] at h3
      obtain ⟨l', h4, rfl⟩ := h3
      intro j hj
      rcases j with _ | j
      · exact ⟨z, hz, h2⟩
      · obtain ⟨z', hz', ho⟩ := ih h4 j (by simpa using hj)
        refine ⟨z', ?_, ?_⟩
        · rcases j with _ | j
          · simpa using hz'
          · simpa using hz'
        · simpa [Function.iterate_succ_apply] using ho

theorem swEmLoop_spec {iter : θ → Λ → π → ℕ → ς → Prog (SwEm θ Λ π ς)} {lr ftol : ℝ} {k : ℕ} {thi : θ} {lam : Λ} {zz : List π} {s : ς} {n : ℕ}
    {prev : Option ℝ} {l : List (SwEm θ Λ π ς)} (h : (swEmLoop iter lr ftol k thi lam zz s n prev).Out (.ok l)) :
    (∀ (hj : 0 < l.length), ∃ z, zz.getLast? = some z ∧ (iter thi lam z n s).Out (.ok l[0])) ∧
    ∀ (j : ℕ) (hj : j + 1 < l.length), ∃ z, l[j].zz.getLast? = some z ∧
      (iter l[j].thi l[j].lam z ((nextParticles lr)^[j + 1] n) l[j].samp).Out (.ok l[j + 1]) := by
  induction k generalizing thi lam zz s n prev l with
  | zero =>
    simp only [swEmLoop, Prog.out_ret, Except.ok.injEq] at h
    subst h
    simp
  | succ k ih =>
    simp only [swEmLoop, Prog.out_bind_ok] at h
    obtain ⟨z, h1, r, h2, h3⟩ := h
    have hz : zz.getLast? = some z := by
      unfold lastParticle at h1
      split at h1 <;> simp_all
    split_ifs at h3 with hs
    · simp only [Prog.out_ret, Except.ok.injEq] at h3
      subst h3
      exact ⟨fun _ => ⟨z, hz, h2⟩, fun j hj => by simp at hj⟩
    · simp only [Prog.out_bind_ok, Prog.out_ret, Except.ok.injEq] at h3
      obtain ⟨l', h4, rfl⟩ := h3
      obtain ⟨g0, g1⟩ := ih h4
      refine ⟨fun _ => ⟨z, hz, h2⟩, fun j hj => ?_⟩
      rcases j with _ | j
      · exact g0 (by simpa using hj)
      · obtain ⟨z', hz', ho⟩ := g1 j (by simpa using hj)
        exact ⟨z', hz', by simpa [Function.iterate_succ_apply] using ho⟩

theorem itoIterate_len {upd : θ → π → Prog π} {opt : θ → List π → Prog (θ × ℝ)} {thin : ℕ} (ht : 0 < thin) {thi : θ} {z : π} {n : ℕ}
    {r : ℝ × θ × List π} (h : (itoIterate upd opt thin thi z n).Out (.ok r)) : r.2.2.length = n := by
  simp only [itoIterate, Prog.out_bind_ok, Prog.out_ret, Except.ok.injEq] at h
  obtain ⟨⟨zz, zf⟩, h1, q, -, rfl⟩ := h
  obtain ⟨-, -, -, -, hl, -⟩ := C64_particles ht h1
  exact hl

theorem swIterate_len {upd : θ → Λ → π × ς → Prog (π × ς)} {opt : θ → List π → Prog (θ × ℝ)} {gen : List π → Prog (Λ × ℝ)} {thin : ℕ}
    (ht : 0 < thin) {thi : θ} {lam : Λ} {z : π} {n : ℕ} {s : ς} {r : SwEm θ Λ π ς}
    (h : (swIterate upd opt gen thin thi lam z n s).Out (.ok r)) : r.zz.length = n := by
  simp only [swIterate, Prog.out_bind_ok, Prog.out_ret, Except.ok.injEq] at h
  obtain ⟨⟨zz, zf⟩, h1, q, -, g, -, rfl⟩ := h
  obtain ⟨-, -, -, -, hl, -⟩ := C64_particles ht h1
  simpa using hl

/-- Every run of the `ito` EM: iteration `j` stores the `j`-th count of particles. -/
theorem C63_ito {aug : Prog π} {upd : θ → π → Prog π} {opt : θ → List π → Prog (θ × ℝ)} {thin : ℕ} (ht : 0 < thin) {init : θ}
    {lr ftol : ℝ} (hlr : 1 ≤ lr) {k : ℕ} {l : List (ℝ × θ × List π)} (h : (itoEm aug upd opt thin init lr ftol k).Out (.ok l)) :
    (∀ (j : ℕ) (hj : j < l.length), l[j].2.2.length = (nextParticles lr)^[j] 1) ∧
    ∀ (i j : ℕ) (hij : i < j) (hj : j < l.length), l[i].2.2.length < l[j].2.2.length := by
  simp only [itoEm, Prog.out_bind_ok] at h
  obtain ⟨z, -, h2⟩ := h
  have key : ∀ (j : ℕ) (hj : j < l.length), l[j].2.2.length = (nextParticles lr)^[j] 1 := by
    intro j hj
    obtain ⟨z', -, ho⟩ := itoEmLoop_spec h2 j hj
    exact itoIterate_len ht ho
  refine ⟨key, fun i j hij hj => ?_⟩
  rw [key, key]
  exact (C63_grows hlr).1 hij

/-- Every run of the `switching` EM. -/
theorem C63_switching {start : Prog (π × ς)} {upd : θ → Λ → π × ς → Prog (π × ς)} {opt : θ → List π → Prog (θ × ℝ)}
    {gen : List π → Prog (Λ × ℝ)} {thin : ℕ} (ht : 0 < thin) {thi : θ} {lam : Λ} {lr ftol : ℝ} (hlr : 1 ≤ lr) {k : ℕ}
    {l : List (SwEm θ Λ π ς)} (h : (swEm start upd opt gen thin thi lam lr ftol k).Out (.ok l)) :
    (∀ (j : ℕ) (hj : j < l.length), l[j].zz.length = (nextParticles lr)^[j] 1) ∧
    ∀ (i j : ℕ) (hij : i < j) (hj : j < l.length), l[i].zz.length < l[j].zz.length := by
  simp only [swEm, Prog.out_bind_ok] at h
  obtain ⟨z, -, h2⟩ := h
  obtain ⟨g0, g1⟩ := swEmLoop_spec h2
  have key : ∀ (j : ℕ) (hj : j < l.length), l[j].zz.length = (nextParticles lr)^[j] 1 := by
    intro j hj
    rcases j with _ | j
    · obtain ⟨z', -, ho⟩ := g0 hj
      exact swIterate_len ht ho
    · obtain ⟨z', -, ho⟩ := g1 j hj
      exact swIterate_len ht ho
  refine ⟨key, fun i j hij hj => ?_⟩
  rw [key, key]
  exact (C63_grows hlr).1 hij

/-- The bound on the learning rate is needed: with one half the count never changes. -/
theorem C63_stuck {n : ℕ} (hn : 1 ≤ n) : nextParticles (1 / 2) n = n := by
  unfold nextParticles
  have e : ((n : ℝ) ^ (1 / (1 / 2 : ℝ)) + 1) ^ (1 / 2 : ℝ) = Real.sqrt ((n : ℝ) ^ 2 + 1) := by
    rw [Real.sqrt_eq_rpow, show (1 / (1 / 2 : ℝ)) = ((2 : ℕ) : ℝ) by norm_num, Real.rpow_natCast]
  rw [e, Nat.floor_eq_iff (Real.sqrt_nonneg _)]
  have h1 : (1 : ℝ) ≤ n := by exact_mod_cast hn
  constructor
  · exact Real.le_sqrt_of_sq_le (by linarith)
  · rw [Real.sqrt_lt' (by positivity)]
    nlinarith

/-- The first counts for the default learning rate 3/2: 1, then 2 (`2^{3/2} = 2.83`). -/
example : nextParticles (3 / 2) 1 = 2 := by
  unfold nextParticles
  rw [Nat.floor_eq_iff (by positivity)]
  norm_num
  have e : (2 : ℝ) ^ (3 / 2 : ℝ) = Real.sqrt 8 := by
    rw [Real.sqrt_eq_rpow, show (8 : ℝ) = 2 ^ (3 : ℝ) by norm_num, ← Real.rpow_mul (by norm_num)]
    norm_num
  rw [e]
  constructor
  · exact Real.le_sqrt_of_sq_le (by norm_num)
  · rw [Real.sqrt_lt' (by norm_num)]; norm_num

/-! ## C65 -/

/-- `switching`: iteration `j + 1` runs its E-step and its M-step from the parameters and rates returned by iteration `j`, and its chain
from the last particle of iteration `j`. -/
theorem C65_switching {start : Prog (π × ς)} {upd : θ → Λ → π × ς → Prog (π × ς)} {opt : θ → List π → Prog (θ × ℝ)}
    {gen : List π → Prog (Λ × ℝ)} {thin : ℕ} {thi : θ} {lam : Λ} {lr ftol : ℝ} {k : ℕ} {l : List (SwEm θ Λ π ς)}
    (h : (swEm start upd opt gen thin thi lam lr ftol k).Out (.ok l)) (j : ℕ) (hj : j + 1 < l.length) :
    ∃ z zs, l[j].zz.getLast? = some z ∧
      (emParticles (upd l[j].thi l[j].lam) (z, l[j].samp) ((nextParticles lr)^[j + 1] 1) thin).Out (.ok zs) ∧
      l[j + 1].zz = zs.1.map Prod.fst ∧ ∃ o g, (opt l[j].thi l[j + 1].zz).Out (.ok (l[j + 1].thi, o)) ∧
      (gen l[j + 1].zz).Out (.ok (l[j + 1].lam, g)) ∧ l[j + 1].obj = o + g := by
  simp only [swEm, Prog.out_bind_ok] at h
  obtain ⟨z0, -, h2⟩ := h
  obtain ⟨z, hz, ho⟩ := (swEmLoop_spec h2).2 j hj
  generalize l[j + 1] = r at ho ⊢
  simp only [swIterate, Prog.out_bind_ok, Prog.out_ret, Except.ok.injEq] at ho
  obtain ⟨zs, h3, q, h4, g, h5, rfl⟩ := ho
  exact ⟨z, zs, hz, h3, rfl, q.2, g.2, h4, h5, rfl⟩

/-- `ito`: what does hold.  The chain continues from the last particle of the iteration before, but both steps start from `init_thi`. -/
theorem C65_partial {aug : Prog π} {upd : θ → π → Prog π} {opt : θ → List π → Prog (θ × ℝ)} {thin : ℕ} {init : θ}
    {lr ftol : ℝ} {k : ℕ} {l : List (ℝ × θ × List π)} (h : (itoEm aug upd opt thin init lr ftol k).Out (.ok l)) (j : ℕ)
    (hj : j + 1 < l.length) :
    ∃ z zs, l[j].2.2.getLast? = some z ∧ (emParticles (upd init) z ((nextParticles lr)^[j + 1] 1) thin).Out (.ok zs) ∧
      l[j + 1].2.2 = zs.1 ∧ (opt init l[j + 1].2.2).Out (.ok (l[j + 1].2.1, l[j + 1].1)) := by
  simp only [itoEm, Prog.out_bind_ok] at h
  obtain ⟨z0, -, h2⟩ := h
  obtain ⟨z, hz, ho⟩ := itoEmLoop_spec h2 (j + 1) hj
  simp only [Nat.add_one_ne_zero, if_false, Nat.add_sub_cancel] at hz
  generalize l[j + 1] = r at ho ⊢
  simp only [itoIterate, Prog.out_bind_ok, Prog.out_ret, Except.ok.injEq] at ho
  obtain ⟨zs, h3, q, h4, rfl⟩ := ho
  exact ⟨z, zs, hz, h3, rfl, h4⟩

/-- Witness: an M-step that adds one to the parameter it is given (and reports minus the number of particles as objective).  Three
iterations from 0 return 1, 1, 1; iterating from the previous value would return 1, 2, 3. -/
theorem C65_violated : ∃ l : List (ℝ × ℕ × List Unit),
    (itoEm (.ret ()) (fun _ z => .ret z) (fun t zz => .ret (t + 1, -(zz.length : ℝ))) 1 0 1 (1 / 100) 3).Out (.ok l) ∧
    l.map (fun r => r.2.1) = [1, 1, 1] ∧ l.length = 3 := by
  have e : ∀ n, nextParticles 1 n = n + 1 := by
    intro n
    unfold nextParticles
    rw [one_div_one, Real.rpow_one, Real.rpow_one]
    exact_mod_cast Nat.floor_natCast (n + 1)
  refine ⟨[(-1, 1, [()]), (-2, 1, [(), ()]), (-3, 1, [(), (), ()])], ?_, by simp, by simp⟩
  simp [itoEm, itoEmLoop, itoIterate, emParticles, emParticlesLoop, lastParticle, e, Nat.mod_one]
  norm_num

/-! ## C66 -/

/-- The relation between a pair of bounds and the buffered pair: inside the original ones, ordered, strictly inside where a finite bound is
strictly below/above the other and the buffer is positive, infinite exactly where the original is. -/
def Buffered (buffer : ℝ) (l u l' u' : Option ℝ) : Prop :=
  (l = none ↔ l' = none) ∧ (u = none ↔ u' = none) ∧
  (∀ a b, l = some a → l' = some b → a ≤ b ∧ (0 < buffer → (∀ c, u = some c → a < c) → a < b)) ∧
  (∀ a b, u = some a → u' = some b → b ≤ a ∧ (0 < buffer → (∀ c, l = some c → c < a) → b < a)) ∧
  ∀ a b, l' = some a → u' = some b → a ≤ b

theorem buffer_one {buffer : ℝ} (hb : 0 ≤ buffer) {l u : Option ℝ} (h : ∀ a b, l = some a → u = some b → a ≤ b) :
    Buffered buffer l u (l.map (· + bufferWidth buffer l u)) (u.map (· - bufferWidth buffer l u)) := by
  rcases l with _ | l <;> rcases u with _ | u
  · simp [Buffered]
  · simp [Buffered, bufferWidth]
    exact hb
  · simp [Buffered, bufferWidth]
    exact hb
  · have hlu := h l u rfl rfl
    have e : |l - u| / 2 = (u - l) / 2 := by rw [abs_sub_comm, abs_of_nonneg (by linarith)]
    have d1 : bufferWidth buffer (some l) (some u) ≤ (u - l) / 2 := by
      rw [bufferWidth, e]; exact min_le_left _ _
    have d0 : 0 ≤ bufferWidth buffer (some l) (some u) := by
      rw [bufferWidth, e]; exact le_min (by linarith) hb
    have d2 : 0 < buffer → l < u → 0 < bufferWidth buffer (some l) (some u) := by
      intro hb hl; rw [bufferWidth, e]; exact lt_min (by linarith) hb
    simp only [Buffered, Option.map_some, reduceCtorEq, Option.some.injEq]
    refine ⟨trivial, trivial, ?_, ?_, ?_⟩
    · rintro a b rfl rfl
      exact ⟨by linarith, fun hb h => by linarith [d2 hb (h u rfl)]⟩
    · rintro a b rfl rfl
      exact ⟨by linarith, fun hb h => by linarith [d2 hb (h l rfl)]⟩
    · rintro a b rfl rfl
      linarith

/-- Bounds given for every coordinate (`None` stands for `n_dim` infinite ones). -/
theorem C66_buffered {lb ub : Option (List (Option ℝ))} {n : ℕ} {buffer : ℝ} (hb : 0 ≤ buffer)
    (hl : (lb.getD (List.replicate n none)).length = (ub.getD (List.replicate n none)).length)
    (h : ∀ p ∈ (lb.getD (List.replicate n none)).zip (ub.getD (List.replicate n none)), ∀ a b, p.1 = some a → p.2 = some b → a ≤ b) :
    ∃ lb' ub', bufferBounds lb ub n buffer = .ok (lb', ub') ∧ lb'.length = (lb.getD (List.replicate n none)).length ∧
      ub'.length = (ub.getD (List.replicate n none)).length ∧
      ∀ (i : ℕ) (h1 : i < (lb.getD (List.replicate n none)).length) (h2 : i < (ub.getD (List.replicate n none)).length)
        (h3 : i < lb'.length) (h4 : i < ub'.length),
        Buffered buffer (lb.getD (List.replicate n none))[i] (ub.getD (List.replicate n none))[i] lb'[i] ub'[i] := by
  unfold bufferBounds
  simp only
  rw [if_neg (not_not.2 hl)]
  refine ⟨_, _, rfl, by simp [hl], by simp [hl], ?_⟩
  intro i h1 h2 h3 h4
  simp only [List.getElem_zipWith]
  apply buffer_one hb
  intro a b ha hb
  refine h (_, _) ?_ a b ha hb
  rw [List.mem_iff_getElem]
  exact ⟨i, by simp [h1, h2], by simp⟩

/-- Bounds of different lengths cannot be combined. -/
theorem C66_error {lb ub : Option (List (Option ℝ))} {n : ℕ} {buffer : ℝ}
    (hl : (lb.getD (List.replicate n none)).length ≠ (ub.getD (List.replicate n none)).length) :
    bufferBounds lb ub n buffer = .error .value := by
  unfold bufferBounds
  simp only
  rw [if_pos hl]

/-- The bounds of the OU models. -/
example : bufferBounds (some [some 0, some 0]) (some [none, some (1 / 100)]) 2 (1 / 100) =
    .ok ([some (1 / 100), some (1 / 200)], [none, some (1 / 200)]) := by
  simp [bufferBounds, bufferWidth]
  norm_num [abs_of_neg, abs_of_pos]

end Ctb
