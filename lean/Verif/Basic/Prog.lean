import Mathlib.Data.Real.Basic
import Mathlib.Order.Interval.Set.Basic
import Mathlib.Data.List.Forall2

/-!
# Programs with randomness and exceptions

`Prog α` is the shape of every sampling function of ctbayes: a tree of draws from `numpy.random.Generator`
methods, ending in a value or in a Python exception.  `Prog.Out` is the "whatever is drawn" semantics.
(The exact-probability semantics is in `Verif.Basic.Law`.)
-/

namespace Ctb

/-- Python exceptions raised by the code, as values.  `fuel` is a model artefact: it marks the point where the
recursion bound given to an unbounded `while` loop was used up.  `nan` is one too: numpy goes on silently with NaN
(logarithm of a non-positive number, 0/0); the model stops there. -/
inductive PyErr
  | assertion | value | type | index | budget | fuel | nan | exception
  deriving DecidableEq, Repr

/-- Result of a Python call: a value or an exception. -/
abbrev Res (α : Type) := Except PyErr α

/-- Real-valued draws. -/
inductive RDist
  /-- `ome.uniform(lo, hi)`; numpy accepts any order of the two bounds -/
  | uniform (lo hi : ℝ)
  /-- `ome.beta(a, b)` -/
  | beta (a b : ℝ)
  /-- `ome.exponential(scale)` -/
  | exponential (scale : ℝ)
  /-- `ome.normal(mean, sd)` -/
  | normal (mean sd : ℝ)
  /-- `ome.wald(mean, scale)` -/
  | wald (mean scale : ℝ)
  /-- `ome.gamma(shape, scale)` -/
  | gamma (shape scale : ℝ)

/-- The values a draw can return (numpy documentation). -/
def RDist.support : RDist → Set ℝ
  | .uniform lo hi => {x | ∃ u : ℝ, 0 ≤ u ∧ u < 1 ∧ x = lo + (hi - lo) * u}
  | .beta _ _ => Set.Ioo 0 1
  | .exponential _ => Set.Ioi 0
  | .normal m s => {x | s = 0 → x = m}
  | .wald _ _ => Set.Ioi 0
  | .gamma _ _ => Set.Ioi 0

/-- Natural-number-valued draws. -/
inductive NDist
  /-- `ome.poisson(lam)` -/
  | poisson (lam : ℝ)
  /-- `ome.choice(n, p=p)` -/
  | choice (n : ℕ) (p : ℕ → ℝ)

/-- The values a draw can return. -/
def NDist.support : NDist → Set ℕ
  | .poisson lam => {n | lam = 0 → n = 0}
  | .choice n p => {i | i < n ∧ 0 < p i}

/-- A program making random draws. -/
inductive Prog (α : Type) : Type
  | ret (a : α)
  | err (e : PyErr)
  | real (d : RDist) (k : ℝ → Prog α)
  | nat (d : NDist) (k : ℕ → Prog α)

namespace Prog

variable {α β γ : Type}

/-- Sequencing. -/
def bind : Prog α → (α → Prog β) → Prog β
  | ret a, f => f a
  | err e, _ => err e
  | real d k, f => real d fun x => (k x).bind f
  | nat d k, f => nat d fun n => (k n).bind f

instance : Monad Prog where
  pure := ret
  bind := bind

/-- Draw a real number. -/
def draw (d : RDist) : Prog ℝ := real d ret

/-- Draw a natural number. -/
def drawN (d : NDist) : Prog ℕ := nat d ret

/-- `assert c` -/
def assert (c : Prop) [Decidable c] : Prog Unit := if c then ret () else err .assertion

/-- Run an exception-valued computation inside a program. -/
def lift : Res α → Prog α
  | .ok a => ret a
  | .error e => err e

/-- `[p for _ in range(n)]` -/
def replicate : ℕ → Prog α → Prog (List α)
  | 0, _ => ret []
  | n + 1, p => p.bind fun a => (replicate n p).bind fun l => ret (a :: l)

/-- `[f(a) for a in l]` where `f` makes draws; evaluated left to right. -/
def mapM' (f : α → Prog β) : List α → Prog (List β)
  | [] => ret []
  | a :: l => (f a).bind fun b => (mapM' f l).bind fun bs => ret (b :: bs)

/-- `Out p r`: some admissible sequence of draws makes `p` finish with `r`. -/
def Out : Prog α → Res α → Prop
  | ret a, r => r = .ok a
  | err e, r => r = .error e
  | real d k, r => ∃ x ∈ d.support, (k x).Out r
  | nat d k, r => ∃ n ∈ d.support, (k n).Out r

@[simp] theorem pure_def (a : α) : (pure a : Prog α) = ret a := rfl
@[simp] theorem bind_def (p : Prog α) (f : α → Prog β) : (p >>= f) = p.bind f := rfl
@[simp] theorem ret_bind (a : α) (f : α → Prog β) : (ret a).bind f = f a := rfl
@[simp] theorem err_bind (e : PyErr) (f : α → Prog β) : (err e : Prog α).bind f = err e := rfl
@[simp] theorem real_bind (d) (k : ℝ → Prog α) (f : α → Prog β) :
    (real d k).bind f = real d fun x => (k x).bind f := rfl
@[simp] theorem nat_bind (d) (k : ℕ → Prog α) (f : α → Prog β) :
    (nat d k).bind f = nat d fun x => (k x).bind f := rfl
@[simp] theorem map_def (f : α → β) (p : Prog α) : f <$> p = p.bind fun a => ret (f a) := rfl

theorem bind_assoc (p : Prog α) (f : α → Prog β) (g : β → Prog γ) :
    (p.bind f).bind g = p.bind fun a => (f a).bind g := by
  induction p with
  | ret a => rfl
  | err e => rfl
  | real d k ih => simp [ih]
  | nat d k ih => simp [ih]

@[simp] theorem out_ret {a : α} {r} : (ret a).Out r ↔ r = .ok a := Iff.rfl
@[simp] theorem out_err {e} {r : Res α} : (err e : Prog α).Out r ↔ r = .error e := Iff.rfl
@[simp] theorem out_real {d} {k : ℝ → Prog α} {r} :
    (real d k).Out r ↔ ∃ x ∈ d.support, (k x).Out r := Iff.rfl
@[simp] theorem out_nat {d} {k : ℕ → Prog α} {r} :
    (nat d k).Out r ↔ ∃ x ∈ d.support, (k x).Out r := Iff.rfl

theorem out_bind {p : Prog α} {f : α → Prog β} {r : Res β} :
    (p.bind f).Out r ↔ (∃ a, p.Out (.ok a) ∧ (f a).Out r) ∨ (∃ e, p.Out (.error e) ∧ r = .error e) := by
  induction p with
  | ret a => simp
  | err e => simp
  | real d k ih =>
    simp only [real_bind, out_real, ih]
    constructor
    · rintro ⟨x, hx, h | h⟩
      · obtain ⟨a, h1, h2⟩ := h; exact .inl ⟨a, ⟨x, hx, h1⟩, h2⟩
      · obtain ⟨e, h1, h2⟩ := h; exact .inr ⟨e, ⟨x, hx, h1⟩, h2⟩
    · rintro (⟨a, ⟨x, hx, h1⟩, h2⟩ | ⟨e, ⟨x, hx, h1⟩, h2⟩)
      · exact ⟨x, hx, .inl ⟨a, h1, h2⟩⟩
      · exact ⟨x, hx, .inr ⟨e, h1, h2⟩⟩
  | nat d k ih =>
    simp only [nat_bind, out_nat, ih]
    constructor
    · rintro ⟨x, hx, h | h⟩
      · obtain ⟨a, h1, h2⟩ := h; exact .inl ⟨a, ⟨x, hx, h1⟩, h2⟩
      · obtain ⟨e, h1, h2⟩ := h; exact .inr ⟨e, ⟨x, hx, h1⟩, h2⟩
    · rintro (⟨a, ⟨x, hx, h1⟩, h2⟩ | ⟨e, ⟨x, hx, h1⟩, h2⟩)
      · exact ⟨x, hx, .inl ⟨a, h1, h2⟩⟩
      · exact ⟨x, hx, .inr ⟨e, h1, h2⟩⟩

theorem out_bind_ok {p : Prog α} {f : α → Prog β} {b : β} :
    (p.bind f).Out (.ok b) ↔ ∃ a, p.Out (.ok a) ∧ (f a).Out (.ok b) := by
  simp [out_bind]

theorem out_bind_error {p : Prog α} {f : α → Prog β} {e : PyErr} :
    (p.bind f).Out (.error e) ↔ p.Out (.error e) ∨ ∃ a, p.Out (.ok a) ∧ (f a).Out (.error e) := by
  rw [out_bind]
  constructor
  · rintro (h | ⟨e', h, he⟩)
    · exact .inr h
    · cases he; exact .inl h
  · rintro (h | h)
    · exact .inr ⟨e, h, rfl⟩
    · exact .inl h

@[simp] theorem out_draw {d : RDist} {r : Res ℝ} : (draw d).Out r ↔ ∃ x ∈ d.support, r = .ok x := Iff.rfl
@[simp] theorem out_drawN {d : NDist} {r : Res ℕ} : (drawN d).Out r ↔ ∃ x ∈ d.support, r = .ok x := Iff.rfl

theorem out_assert {c : Prop} [Decidable c] {r : Res Unit} :
    (assert c).Out r ↔ (c ∧ r = .ok ()) ∨ (¬c ∧ r = .error .assertion) := by
  unfold assert; split <;> simp_all

@[simp] theorem out_assert_ok {c : Prop} [Decidable c] {u : Unit} : (assert c).Out (.ok u) ↔ c := by
  simp [out_assert]

@[simp] theorem out_assert_error {c : Prop} [Decidable c] {e : PyErr} :
    (assert c).Out (.error e) ↔ ¬c ∧ e = .assertion := by
  simp [out_assert]

@[simp] theorem out_lift {x : Res α} {r} : (lift x).Out r ↔ r = x := by
  cases x <;> simp [lift]

/-- Every result list of `replicate n p` has length `n` and consists of results of `p`. -/
theorem out_replicate_ok {n : ℕ} {p : Prog α} {l : List α} :
    (replicate n p).Out (.ok l) ↔ l.length = n ∧ ∀ a ∈ l, p.Out (.ok a) := by
  induction n generalizing l with
  | zero => simp +contextual [replicate]
  | succ n ih =>
    simp only [replicate, out_bind_ok, ih, out_ret]
    constructor
    · rintro ⟨a, ha, l', ⟨h1, h2⟩, h3⟩
      cases h3; simp_all
    · rintro ⟨h1, h2⟩
      cases l with
      | nil => simp at h1
      | cons a l => exact ⟨a, h2 a (by simp), l, ⟨by simpa using h1, fun b hb => h2 b (by simp [hb])⟩, rfl⟩

theorem out_mapM'_ok {f : α → Prog β} {l : List α} {bs : List β} :
    (mapM' f l).Out (.ok bs) ↔ List.Forall₂ (fun a b => (f a).Out (.ok b)) l bs := by
  induction l generalizing bs with
  | nil => cases bs <;> simp [mapM']
  | cons a l ih =>
    simp only [mapM', out_bind_ok, ih, out_ret]
    constructor
    · rintro ⟨b, hb, bs', h, h2⟩
      cases h2; exact .cons hb h
    · rintro h
      cases h with
      | cons h1 h2 => exact ⟨_, h1, _, h2, rfl⟩

/-- Every possible result satisfies `P`. -/
def All (p : Prog α) (P : Res α → Prop) : Prop := ∀ r, p.Out r → P r

end Prog
end Ctb
