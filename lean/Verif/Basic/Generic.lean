import Verif.Basic.Prog

/-!
# Generic draws

`Prog.Gen p h r h'`: like `Prog.Out`, but every real draw must avoid the list `h` of values that were excluded or drawn
before (so draws are pairwise distinct, and `h = [0]` also excludes an exact zero).  For the continuous distributions of
`RDist` the excluded values have probability zero.  Statements that fail only for exact ties or an exact zero of a uniform
draw are proved for generic draws, next to the witness that fails.
-/

namespace Ctb
namespace Prog

variable {α β : Type}

/-- Generic outcome; `h'` is the list of values after the run. -/
def Gen : Prog α → List ℝ → Res α → List ℝ → Prop
  | ret a, h, r, h' => r = .ok a ∧ h' = h
  | err e, h, r, h' => r = .error e ∧ h' = h
  | real d k, h, r, h' => ∃ x ∈ d.support, x ∉ h ∧ (k x).Gen (x :: h) r h'
  | nat d k, h, r, h' => ∃ n ∈ d.support, (k n).Gen h r h'

@[simp] theorem gen_ret {a : α} {h r h'} : (ret a).Gen h r h' ↔ r = .ok a ∧ h' = h := Iff.rfl
@[simp] theorem gen_err {e} {h h'} {r : Res α} : (err e : Prog α).Gen h r h' ↔ r = .error e ∧ h' = h := Iff.rfl
@[simp] theorem gen_real {d} {k : ℝ → Prog α} {h r h'} :
    (real d k).Gen h r h' ↔ ∃ x ∈ d.support, x ∉ h ∧ (k x).Gen (x :: h) r h' := Iff.rfl
@[simp] theorem gen_nat {d} {k : ℕ → Prog α} {h r h'} :
    (nat d k).Gen h r h' ↔ ∃ n ∈ d.support, (k n).Gen h r h' := Iff.rfl

/-- Generic outcomes are outcomes. -/
theorem Gen.out {p : Prog α} {h r h'} (hg : p.Gen h r h') : p.Out r := by
  induction p generalizing h with
  | ret a => exact hg.1
  | err e => exact hg.1
  | real d k ih => obtain ⟨x, hx, -, h1⟩ := hg; exact ⟨x, hx, ih x h1⟩
  | nat d k ih => obtain ⟨x, hx, h1⟩ := hg; exact ⟨x, hx, ih x h1⟩

/-- The exclusion list only grows. -/
theorem Gen.mono {p : Prog α} {h r h'} (hg : p.Gen h r h') : ∀ x ∈ h, x ∈ h' := by
  induction p generalizing h with
  | ret a => intro x hx; rw [hg.2]; exact hx
  | err e => intro x hx; rw [hg.2]; exact hx
  | real d k ih => obtain ⟨x, -, -, h1⟩ := hg; intro y hy; exact ih x h1 y (List.mem_cons_of_mem _ hy)
  | nat d k ih => obtain ⟨x, -, h1⟩ := hg; intro y hy; exact ih x h1 y hy

theorem gen_bind {p : Prog α} {f : α → Prog β} {h r h'} :
    (p.bind f).Gen h r h' ↔ (∃ a h1, p.Gen h (.ok a) h1 ∧ (f a).Gen h1 r h') ∨
      (∃ e, p.Gen h (.error e) h' ∧ r = .error e) := by
  induction p generalizing h with
  | ret a => simp [Prog.ret_bind]
  | err e => simp; tauto
  | real d k ih =>
    simp only [real_bind, gen_real, ih]
    constructor
    · rintro ⟨x, hx, hn, ⟨a, h1, ha, hf⟩ | ⟨e, he, hr⟩⟩
      · exact .inl ⟨a, h1, ⟨x, hx, hn, ha⟩, hf⟩
      · exact .inr ⟨e, ⟨x, hx, hn, he⟩, hr⟩
    · rintro (⟨a, h1, ⟨x, hx, hn, ha⟩, hf⟩ | ⟨e, ⟨x, hx, hn, he⟩, hr⟩)
      · exact ⟨x, hx, hn, .inl ⟨a, h1, ha, hf⟩⟩
      · exact ⟨x, hx, hn, .inr ⟨e, he, hr⟩⟩
  | nat d k ih =>
    simp only [nat_bind, gen_nat, ih]
    constructor
    · rintro ⟨x, hx, ⟨a, h1, ha, hf⟩ | ⟨e, he, hr⟩⟩
      · exact .inl ⟨a, h1, ⟨x, hx, ha⟩, hf⟩
      · exact .inr ⟨e, ⟨x, hx, he⟩, hr⟩
    · rintro (⟨a, h1, ⟨x, hx, ha⟩, hf⟩ | ⟨e, ⟨x, hx, he⟩, hr⟩)
      · exact ⟨x, hx, .inl ⟨a, h1, ha, hf⟩⟩
      · exact ⟨x, hx, .inr ⟨e, he, hr⟩⟩

theorem gen_bind_ok {p : Prog α} {f : α → Prog β} {h b h'} :
    (p.bind f).Gen h (.ok b) h' ↔ ∃ a h1, p.Gen h (.ok a) h1 ∧ (f a).Gen h1 (.ok b) h' := by
  simp [gen_bind]

/-- A vector of generic draws has distinct entries avoiding the exclusion list. -/
theorem gen_replicate_draw {n : ℕ} {d : RDist} {h l h'} (hg : (replicate n (draw d)).Gen h (.ok l) h') :
    l.length = n ∧ (∀ x ∈ l, x ∈ d.support ∧ x ∉ h) ∧ l.Nodup ∧ (∀ x ∈ h, x ∈ h') := by
  induction n generalizing h l with
  | zero => simp [replicate] at hg; obtain ⟨rfl, rfl⟩ := hg; simp
  | succ n ih =>
    simp only [replicate, draw, real_bind, gen_real, ret_bind, gen_bind_ok, gen_ret] at hg
    obtain ⟨x, hx, hn, l1, h1, hl, h2, rfl⟩ := hg
    obtain ⟨a1, a2, a3, a4⟩ := ih hl
    cases h2
    refine ⟨by simp [a1], ?_, ?_, fun y hy => a4 y (List.mem_cons_of_mem _ hy)⟩
    · intro y hy
      rcases List.mem_cons.1 hy with rfl | hy
      · exact ⟨hx, hn⟩
      · exact ⟨(a2 y hy).1, fun hm => (a2 y hy).2 (List.mem_cons_of_mem _ hm)⟩
    · refine List.nodup_cons.2 ⟨fun hm => (a2 x hm).2 (by simp), a3⟩

/-- Every element of a generic `mapM'` comes from a generic run with an exclusion list containing the initial one. -/
theorem gen_mapM' {f : α → Prog β} {l : List α} {bs : List β} {h h'} (hg : (mapM' f l).Gen h (.ok bs) h') :
    List.Forall₂ (fun a b => ∃ h1 h2, (∀ x ∈ h, x ∈ h1) ∧ (f a).Gen h1 (.ok b) h2) l bs := by
  induction l generalizing bs h h' with
  | nil => simp [mapM'] at hg; rw [hg.1]; exact .nil
  | cons a l ih =>
    simp only [mapM', gen_bind_ok, gen_ret] at hg
    obtain ⟨b, h1, hb, bs', h2, hbs, h3, -⟩ := hg
    cases h3
    refine .cons ⟨h, h1, fun _ hx => hx, hb⟩ ?_
    refine (ih hbs).imp ?_
    rintro c d ⟨k1, k2, hk, hc⟩
    exact ⟨k1, k2, fun x hx => hk x (hb.mono x hx), hc⟩

end Prog
end Ctb
