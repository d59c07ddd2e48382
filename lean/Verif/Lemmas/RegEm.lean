import Verif.Lemmas.RegUpdate
import Verif.Model.Mcem

/-!
# The loops of Monte Carlo EM have measurable laws
-/

set_option linter.unusedSectionVars false

namespace Ctb

open MeasureTheory Set Classical

variable {X Y θ π Λ ς : Type} [MeasurableSpace X] [MeasurableSpace Y] [MeasurableSpace θ] [MeasurableSpace π] [MeasurableSpace Λ] [MeasurableSpace ς]

theorem reg_emParticlesLoop [Inhabited π] {upd : X → π → Prog π} (hu : Reg fun q : X × π => upd q.1 q.2) (thin : ℕ) :
    ∀ n i, Reg fun q : X × π => emParticlesLoop (upd q.1) thin n i q.2
  | 0, _ => Reg.ret (by fun_prop)
  | n + 1, i => by
    simp only [emParticlesLoop]
    refine Reg.bind hu (Reg.bind ((reg_emParticlesLoop hu thin n (i + 1)).comp (f := fun q : (X × π) × π => (q.1.1, q.2)) (by fun_prop)) (Reg.ret ?_))
    by_cases h : i % thin = 0
    · simp only [h, if_true]; fun_prop
    · simp only [h, if_false]; fun_prop

theorem reg_emParticles [Inhabited π] {upd : X → π → Prog π} (hu : Reg fun q : X × π => upd q.1 q.2) (thin n : ℕ) {z : X → π} (hz : Measurable z) :
    Reg fun x => emParticles (upd x) (z x) n thin :=
  (reg_emParticlesLoop hu thin (n * thin) 0).comp (f := fun x => (x, z x)) (by fun_prop)

theorem reg_lastParticle [Inhabited π] {zz : X → List π} (hz : Measurable zz) : Reg fun x => lastParticle (zz x) := by
  unfold lastParticle
  exact Reg.optionCases (o := fun x => (zz x).getLast?) (by fun_prop) (p := fun _ o => match o with
    | some z => .ret z
    | none => .err .index) (Reg.err _) (Reg.ret measurable_snd)

theorem measSet_close {r : X → ℝ} {prev : X → Option ℝ} (hr : Measurable r) (hp : Measurable prev) (ftol : ℝ) : Measurable fun x => ∃ p, prev x = some p ∧ |r x - p| < ftol :=
  Measurable.optionEx hp (P := fun x p => |r x - p| < ftol) (by fun_prop)

/-! ## `ito` -/

theorem reg_itoIterate [Inhabited π] {upd : X → θ → π → Prog π} (hu : Reg fun q : (X × θ) × π => upd q.1.1 q.1.2 q.2) {opt : X → θ → List π → Prog (θ × ℝ)}
    (ho : Reg fun q : X × θ × List π => opt q.1 q.2.1 q.2.2) (thin n : ℕ) : Reg fun q : X × θ × π => itoIterate (upd q.1) (opt q.1) thin q.2.1 q.2.2 n := by
  unfold itoIterate
  refine Reg.bind (reg_emParticles (X := X × θ × π) (upd := fun q => upd q.1 q.2.1) (hu.comp (f := fun q : (X × θ × π) × π => ((q.1.1, q.1.2.1), q.2)) (by fun_prop)) thin n (by fun_prop)) ?_
  refine Reg.bind (ho.comp (f := fun q : (X × θ × π) × List π × π => (q.1.1, q.1.2.1, q.2.1)) (by fun_prop)) (Reg.ret (by fun_prop))

theorem reg_itoEmLoop [Inhabited π] [Inhabited θ] {iter : X → θ → π → ℕ → Prog (ℝ × θ × List π)} (hi : ∀ n, Reg fun q : X × θ × π => iter q.1 q.2.1 q.2.2 n) (lr ftol : ℝ) :
    ∀ k n, Reg fun q : (X × θ) × List π × Option ℝ => itoEmLoop (iter q.1.1) q.1.2 lr ftol k q.2.1 n q.2.2
  | 0, _ => Reg.ret measurable_const
  | k + 1, n => by
    simp only [itoEmLoop]
    refine Reg.bind (reg_lastParticle (by fun_prop)) (Reg.bind ((hi n).comp (f := fun q : ((X × θ) × List π × Option ℝ) × π => (q.1.1.1, q.1.1.2, q.2)) (by fun_prop))
      (Reg.ite' (measSet_close (by fun_prop) (by fun_prop) ftol) (Reg.ret (by fun_prop)) (Reg.bind ?_ (Reg.ret (by fun_prop)))))
    exact (reg_itoEmLoop hi lr ftol k (nextParticles lr n)).comp
      (f := fun q : ((((X × θ) × List π × Option ℝ) × π) × ℝ × θ × List π) => ((q.1.1.1.1, q.1.1.1.2), q.2.2.2, some q.2.1)) (by fun_prop)

theorem reg_itoEm [Inhabited π] [Inhabited θ] {aug : X → Prog π} (ha : Reg aug) {upd : X → θ → π → Prog π} (hu : Reg fun q : (X × θ) × π => upd q.1.1 q.1.2 q.2)
    {opt : X → θ → List π → Prog (θ × ℝ)} (ho : Reg fun q : X × θ × List π => opt q.1 q.2.1 q.2.2) (thin : ℕ) {init : X → θ} (hi : Measurable init) (lr ftol : ℝ) (k : ℕ) :
    Reg fun x => itoEm (aug x) (upd x) (opt x) thin (init x) lr ftol k := by
  unfold itoEm
  refine Reg.bind ha ?_
  exact (reg_itoEmLoop (X := X) (iter := fun x => itoIterate (upd x) (opt x) thin) (fun n => reg_itoIterate hu ho thin n) lr ftol k 1).comp
    (f := fun q : X × π => ((q.1, init q.1), [q.2], none)) (by fun_prop)

/-! ## `switching` -/

def SwEm.tup (r : SwEm θ Λ π ς) : ℝ × θ × Λ × List π × ς := (r.obj, r.thi, r.lam, r.zz, r.samp)

instance : MeasurableSpace (SwEm θ Λ π ς) := MeasurableSpace.comap SwEm.tup inferInstance
instance [Inhabited θ] [Inhabited Λ] [Inhabited ς] : Inhabited (SwEm θ Λ π ς) := ⟨⟨0, default, default, [], default⟩⟩

theorem measurable_swEmTup : Measurable (SwEm.tup : SwEm θ Λ π ς → _) := comap_measurable _

section
variable {r : X → SwEm θ Λ π ς} (h : Measurable r)
include h
@[fun_prop] theorem Measurable.swEmObj : Measurable fun x => (r x).obj := (measurable_swEmTup.comp h).fst
@[fun_prop] theorem Measurable.swEmThi : Measurable fun x => (r x).thi := (measurable_swEmTup.comp h).snd.fst
@[fun_prop] theorem Measurable.swEmLam : Measurable fun x => (r x).lam := (measurable_swEmTup.comp h).snd.snd.fst
@[fun_prop] theorem Measurable.swEmZz : Measurable fun x => (r x).zz := (measurable_swEmTup.comp h).snd.snd.snd.fst
@[fun_prop] theorem Measurable.swEmSamp : Measurable fun x => (r x).samp := (measurable_swEmTup.comp h).snd.snd.snd.snd
end

@[fun_prop] theorem Measurable.swEmMk {a : X → ℝ} {b : X → θ} {c : X → Λ} {d : X → List π} {e : X → ς} (ha : Measurable a) (hb : Measurable b) (hc : Measurable c) (hd : Measurable d)
    (he : Measurable e) : Measurable fun x => (⟨a x, b x, c x, d x, e x⟩ : SwEm θ Λ π ς) := by
  refine measurable_comap_iff.2 ?_
  show Measurable fun x => (a x, b x, c x, d x, e x)
  fun_prop

theorem reg_swIterate [Inhabited π] [Inhabited ς] {upd : X → θ → Λ → π × ς → Prog (π × ς)} (hu : Reg fun q : (X × θ × Λ) × π × ς => upd q.1.1 q.1.2.1 q.1.2.2 q.2)
    {opt : X → θ → List π → Prog (θ × ℝ)} (ho : Reg fun q : X × θ × List π => opt q.1 q.2.1 q.2.2) {gen : X → List π → Prog (Λ × ℝ)} (hg : Reg fun q : X × List π => gen q.1 q.2) (thin n : ℕ) :
    Reg fun q : (X × θ × Λ) × π × ς => swIterate (upd q.1.1) (opt q.1.1) (gen q.1.1) thin q.1.2.1 q.1.2.2 q.2.1 n q.2.2 := by
  unfold swIterate
  refine Reg.bind (reg_emParticles (X := (X × θ × Λ) × π × ς) (upd := fun q => upd q.1.1 q.1.2.1 q.1.2.2) (hu.comp (f := fun q : ((X × θ × Λ) × π × ς) × π × ς => (q.1.1, q.2)) (by fun_prop))
    thin n (z := fun q => (q.2.1, q.2.2)) (by fun_prop)) ?_
  have hm : ∀ {Y : Type} [MeasurableSpace Y] {l : Y → List (π × ς)}, Measurable l → Measurable fun y => (l y).map Prod.fst := fun hl =>
    Measurable.listMap (f := fun _ => Prod.fst) hl (by fun_prop)
  have h1 : Measurable fun q : ((X × θ × Λ) × π × ς) × List (π × ς) × π × ς => q.2.1.map Prod.fst := hm (by fun_prop)
  refine Reg.bind (ho.comp (f := fun q : ((X × θ × Λ) × π × ς) × List (π × ς) × π × ς => (q.1.1.1, q.1.1.2.1, q.2.1.map Prod.fst)) (by fun_prop)) ?_
  have h2 : Measurable fun q : (((X × θ × Λ) × π × ς) × List (π × ς) × π × ς) × θ × ℝ => q.1.2.1.map Prod.fst := hm (by fun_prop)
  refine Reg.bind (hg.comp (f := fun q : (((X × θ × Λ) × π × ς) × List (π × ς) × π × ς) × θ × ℝ => (q.1.1.1.1, q.1.2.1.map Prod.fst)) (by fun_prop)) (Reg.ret ?_)
  have h3 : Measurable fun q : ((((X × θ × Λ) × π × ς) × List (π × ς) × π × ς) × θ × ℝ) × Λ × ℝ => q.1.1.2.1.map Prod.fst := hm (by fun_prop)
  fun_prop

theorem reg_swEmLoop [Inhabited π] [Inhabited ς] [Inhabited θ] [Inhabited Λ] {iter : X → θ → Λ → π → ℕ → ς → Prog (SwEm θ Λ π ς)}
    (hi : ∀ n, Reg fun q : (X × θ × Λ) × π × ς => iter q.1.1 q.1.2.1 q.1.2.2 q.2.1 n q.2.2) (lr ftol : ℝ) :
    ∀ k n, Reg fun q : (X × θ × Λ) × List π × ς × Option ℝ => swEmLoop (iter q.1.1) lr ftol k q.1.2.1 q.1.2.2 q.2.1 q.2.2.1 n q.2.2.2
  | 0, _ => Reg.ret measurable_const
  | k + 1, n => by
    simp only [swEmLoop]
    refine Reg.bind (reg_lastParticle (by fun_prop)) (Reg.bind ((hi n).comp (f := fun q : ((X × θ × Λ) × List π × ς × Option ℝ) × π => (q.1.1, q.2, q.1.2.2.1)) (by fun_prop))
      (Reg.ite' (measSet_close (by fun_prop) (by fun_prop) ftol) (Reg.ret (by fun_prop)) (Reg.bind ?_ (Reg.ret (by fun_prop)))))
    exact (reg_swEmLoop hi lr ftol k (nextParticles lr n)).comp
      (f := fun q : ((((X × θ × Λ) × List π × ς × Option ℝ) × π) × SwEm θ Λ π ς) => ((q.1.1.1.1, q.2.thi, q.2.lam), q.2.zz, q.2.samp, some q.2.obj)) (by fun_prop)

theorem reg_swEm [Inhabited π] [Inhabited ς] [Inhabited θ] [Inhabited Λ] {start : X → Prog (π × ς)} (hs : Reg start) {upd : X → θ → Λ → π × ς → Prog (π × ς)}
    (hu : Reg fun q : (X × θ × Λ) × π × ς => upd q.1.1 q.1.2.1 q.1.2.2 q.2) {opt : X → θ → List π → Prog (θ × ℝ)} (ho : Reg fun q : X × θ × List π => opt q.1 q.2.1 q.2.2)
    {gen : X → List π → Prog (Λ × ℝ)} (hg : Reg fun q : X × List π => gen q.1 q.2) (thin : ℕ) {thi : X → θ} {lam : X → Λ} (ht : Measurable thi) (hl : Measurable lam) (lr ftol : ℝ) (k : ℕ) :
    Reg fun x => swEm (start x) (upd x) (opt x) (gen x) thin (thi x) (lam x) lr ftol k := by
  unfold swEm
  refine Reg.bind hs ?_
  exact (reg_swEmLoop (X := X) (iter := fun x => swIterate (upd x) (opt x) (gen x) thin) (fun n => reg_swIterate hu ho hg thin n) lr ftol k 1).comp
    (f := fun q : X × π × ς => ((q.1, thi q.1, lam q.1), [q.2.1], q.2.2, none)) (by fun_prop)

/-! ## Mass one -/

theorem mass_emParticlesLoop {upd : π → Prog π} (hu : ∀ z, Mass1 (upd z)) (thin : ℕ) : ∀ n i z, Mass1 (emParticlesLoop upd thin n i z)
  | 0, _, _ => .ret _
  | n + 1, i, z => (hu z).bind fun _ _ => (mass_emParticlesLoop hu thin n (i + 1) _).bind fun _ _ => .ret _

theorem mass_lastParticle (zz : List π) : Mass1 (lastParticle zz) := by
  unfold lastParticle
  split
  · exact .ret _
  · exact .err _

theorem mass_itoIterate {upd : θ → π → Prog π} (hu : ∀ thi z, Mass1 (upd thi z)) {opt : θ → List π → Prog (θ × ℝ)} (ho : ∀ thi zz, Mass1 (opt thi zz)) (thin : ℕ) (thi : θ) (z : π) (n : ℕ) :
    Mass1 (itoIterate upd opt thin thi z n) :=
  (mass_emParticlesLoop (hu thi) ..).bind fun _ _ => (ho ..).bind fun _ _ => .ret _

theorem mass_itoEmLoop {iter : θ → π → ℕ → Prog (ℝ × θ × List π)} (hi : ∀ thi z n, Mass1 (iter thi z n)) (init : θ) (lr ftol : ℝ) :
    ∀ k zz n prev, Mass1 (itoEmLoop iter init lr ftol k zz n prev)
  | 0, _, _, _ => .ret _
  | k + 1, zz, _, _ => (mass_lastParticle zz).bind fun _ _ => (hi ..).bind fun _ _ => Mass1.ite (fun _ => .ret _) fun _ =>
    (mass_itoEmLoop hi init lr ftol k _ _ _).bind fun _ _ => .ret _

theorem mass_itoEm {aug : Prog π} (ha : Mass1 aug) {upd : θ → π → Prog π} (hu : ∀ thi z, Mass1 (upd thi z)) {opt : θ → List π → Prog (θ × ℝ)} (ho : ∀ thi zz, Mass1 (opt thi zz)) (thin : ℕ)
    (init : θ) (lr ftol : ℝ) (k : ℕ) : Mass1 (itoEm aug upd opt thin init lr ftol k) :=
  ha.bind fun _ _ => mass_itoEmLoop (mass_itoIterate hu ho thin) init lr ftol k _ _ _

theorem mass_swIterate {upd : θ → Λ → π × ς → Prog (π × ς)} (hu : ∀ thi lam z, Mass1 (upd thi lam z)) {opt : θ → List π → Prog (θ × ℝ)} (ho : ∀ thi zz, Mass1 (opt thi zz))
    {gen : List π → Prog (Λ × ℝ)} (hg : ∀ zz, Mass1 (gen zz)) (thin : ℕ) (thi : θ) (lam : Λ) (z : π) (n : ℕ) (s : ς) : Mass1 (swIterate upd opt gen thin thi lam z n s) :=
  (mass_emParticlesLoop (hu thi lam) ..).bind fun _ _ => (ho ..).bind fun _ _ => (hg _).bind fun _ _ => .ret _

theorem mass_swEmLoop {iter : θ → Λ → π → ℕ → ς → Prog (SwEm θ Λ π ς)} (hi : ∀ thi lam z n s, Mass1 (iter thi lam z n s)) (lr ftol : ℝ) :
    ∀ k thi lam zz s n prev, Mass1 (swEmLoop iter lr ftol k thi lam zz s n prev)
  | 0, _, _, _, _, _, _ => .ret _
  | k + 1, _, _, zz, _, _, _ => (mass_lastParticle zz).bind fun _ _ => (hi ..).bind fun _ _ => Mass1.ite (fun _ => .ret _) fun _ =>
    (mass_swEmLoop hi lr ftol k _ _ _ _ _ _).bind fun _ _ => .ret _

theorem mass_swEm {start : Prog (π × ς)} (hs : Mass1 start) {upd : θ → Λ → π × ς → Prog (π × ς)} (hu : ∀ thi lam z, Mass1 (upd thi lam z)) {opt : θ → List π → Prog (θ × ℝ)}
    (ho : ∀ thi zz, Mass1 (opt thi zz)) {gen : List π → Prog (Λ × ℝ)} (hg : ∀ zz, Mass1 (gen zz)) (thin : ℕ) (thi : θ) (lam : Λ) (lr ftol : ℝ) (k : ℕ) :
    Mass1 (swEm start upd opt gen thin thi lam lr ftol k) :=
  hs.bind fun _ _ => mass_swEmLoop (mass_swIterate hu ho hg thin) lr ftol k _ _ _ _ _ _

end Ctb
