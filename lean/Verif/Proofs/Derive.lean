import Verif.Spec.Cfg

/-!
# FIRST and FOLLOW without derivations

Inductive descriptions of the empty string, the first terminals and the following terminals, shown to agree with
derivations.
-/

namespace Pango.Parse

open Pango.Spec

variable {V T : Type} {g : Grammar V T}

/-- The empty string can be derived. -/
inductive Nullable (g : Grammar V T) : List (Sym V T) → Prop
  | nil : Nullable g []
  | eps {α : List (Sym V T)} : Nullable g α → Nullable g (.eps :: α)
  | var {v : V} {β α : List (Sym V T)} :
      (v, β) ∈ g.rules → Nullable g β → Nullable g α → Nullable g (.var v :: α)

/-- A string beginning with `t` can be derived. -/
inductive Starts (g : Grammar V T) (t : T) : List (Sym V T) → Prop
  | term {α : List (Sym V T)} : Starts g t (.term t :: α)
  | eps {α : List (Sym V T)} : Starts g t α → Starts g t (.eps :: α)
  | inVar {v : V} {β α : List (Sym V T)} : (v, β) ∈ g.rules → Starts g t β → Starts g t (.var v :: α)
  | skip {v : V} {β α : List (Sym V T)} :
      (v, β) ∈ g.rules → Nullable g β → Starts g t α → Starts g t (.var v :: α)

/-- `t` can follow `v`. -/
inductive Fol (g : Grammar V T) (t : T) : V → Prop
  | here {h v : V} {pre rest : List (Sym V T)} :
      (h, pre ++ .var v :: rest) ∈ g.rules → Starts g t rest → Fol g t v
  | up {h v : V} {pre rest : List (Sym V T)} :
      (h, pre ++ .var v :: rest) ∈ g.rules → Nullable g rest → Fol g t h → Fol g t v

/-! ## Derivations -/

theorem _root_.Pango.Spec.Derives.trans {x y z : List (Sym V T)} (h1 : Derives g x y) (h2 : Derives g y z) : Derives g x z := by
  induction h2 with
  | refl => exact h1
  | step _ hs ih => exact ih.step hs

theorem _root_.Pango.Spec.Step.context {x y : List (Sym V T)} (h : Step g x y) (a b : List (Sym V T)) :
    Step g (a ++ x ++ b) (a ++ y ++ b) := by
  cases h with
  | @rule x y β v hr => simpa using Step.rule (x := a ++ x) (y := y ++ b) hr
  | @eps x y => simpa using Step.eps (g := g) (x := a ++ x) (y := y ++ b)

theorem _root_.Pango.Spec.Derives.context {x y : List (Sym V T)} (h : Derives g x y) (a b : List (Sym V T)) :
    Derives g (a ++ x ++ b) (a ++ y ++ b) := by
  induction h with
  | refl => exact .refl
  | step _ hs ih => exact ih.step (Step.context hs a b)

theorem _root_.Pango.Spec.Derives.rule {v : V} {β : List (Sym V T)} (h : (v, β) ∈ g.rules) (x y : List (Sym V T)) :
    Derives g (x ++ .var v :: y) (x ++ (β ++ y)) := .step .refl (.rule h)

theorem nullable_append {α β : List (Sym V T)} : Nullable g (α ++ β) ↔ Nullable g α ∧ Nullable g β := by
  constructor
  · intro h
    generalize hs : α ++ β = s at h
    induction h generalizing α with
    | nil => simp at hs; obtain ⟨rfl, rfl⟩ := hs; exact ⟨.nil, .nil⟩
    | @eps s h ih =>
      cases α with
      | nil => simp at hs; subst hs; exact ⟨.nil, h.eps⟩
      | cons a α =>
        simp at hs
        obtain ⟨rfl, hs⟩ := hs
        obtain ⟨h1, h2⟩ := ih hs
        exact ⟨h1.eps, h2⟩
    | @var v γ s hr hn h _ ih =>
      cases α with
      | nil => simp at hs; subst hs; exact ⟨.nil, .var hr hn h⟩
      | cons a α =>
        simp at hs
        obtain ⟨rfl, hs⟩ := hs
        obtain ⟨h1, h2⟩ := ih hs
        exact ⟨.var hr hn h1, h2⟩
  · rintro ⟨h1, h2⟩
    induction h1 with
    | nil => exact h2
    | eps _ ih => exact ih.eps
    | var hr hn _ _ ih => exact .var hr hn ih

theorem starts_append {t : T} {α β : List (Sym V T)} :
    Starts g t (α ++ β) ↔ Starts g t α ∨ (Nullable g α ∧ Starts g t β) := by
  constructor
  · intro h
    generalize hs : α ++ β = s at h
    induction h generalizing α with
    | @term s =>
      cases α with
      | nil => simp at hs; subst hs; exact .inr ⟨.nil, .term⟩
      | cons a α => simp at hs; obtain ⟨rfl, _⟩ := hs; exact .inl .term
    | @eps s h ih =>
      cases α with
      | nil => simp at hs; subst hs; exact .inr ⟨.nil, h.eps⟩
      | cons a α =>
        simp at hs
        obtain ⟨rfl, hs⟩ := hs
        rcases ih hs with h | ⟨h1, h2⟩
        · exact .inl h.eps
        · exact .inr ⟨h1.eps, h2⟩
    | @inVar v γ s hr h _ =>
      cases α with
      | nil => simp at hs; subst hs; exact .inr ⟨.nil, .inVar hr h⟩
      | cons a α => simp at hs; obtain ⟨rfl, _⟩ := hs; exact .inl (.inVar hr h)
    | @skip v γ s hr hn h ih =>
      cases α with
      | nil => simp at hs; subst hs; exact .inr ⟨.nil, .skip hr hn h⟩
      | cons a α =>
        simp at hs
        obtain ⟨rfl, hs⟩ := hs
        rcases ih hs with h | ⟨h1, h2⟩
        · exact .inl (.skip hr hn h)
        · exact .inr ⟨.var hr hn h1, h2⟩
  · rintro (h | ⟨h1, h2⟩)
    · induction h with
      | term => exact .term
      | eps _ ih => exact ih.eps
      | inVar hr h _ => exact .inVar hr h
      | skip hr hn _ ih => exact .skip hr hn ih
    · induction h1 with
      | nil => exact h2
      | eps _ ih => exact ih.eps
      | var hr hn _ _ ih => exact .skip hr hn ih

theorem nullable_eps {α : List (Sym V T)} : Nullable g (.eps :: α) ↔ Nullable g α :=
  ⟨fun h => by cases h; assumption, .eps⟩

theorem starts_eps {t : T} {α : List (Sym V T)} : Starts g t (.eps :: α) ↔ Starts g t α :=
  ⟨fun h => by cases h; assumption, .eps⟩

theorem _root_.Pango.Spec.Step.nullable {x y : List (Sym V T)} (h : Step g x y) (hn : Nullable g y) : Nullable g x := by
  cases h with
  | @rule x y β v hr =>
    rw [nullable_append, nullable_append] at hn
    exact nullable_append.2 ⟨hn.1, .var hr hn.2.1 hn.2.2⟩
  | @eps x y =>
    rw [nullable_append] at hn
    exact nullable_append.2 ⟨hn.1, hn.2.eps⟩

theorem _root_.Pango.Spec.Step.starts {t : T} {x y : List (Sym V T)} (h : Step g x y) (hn : Starts g t y) : Starts g t x := by
  cases h with
  | @rule x y β v hr =>
    rw [starts_append, starts_append] at hn
    rw [starts_append]
    rcases hn with h | ⟨h1, h | ⟨h2, h3⟩⟩
    · exact .inl h
    · exact .inr ⟨h1, .inVar hr h⟩
    · exact .inr ⟨h1, .skip hr h2 h3⟩
  | @eps x y =>
    rw [starts_append] at hn ⊢
    rw [starts_eps]
    exact hn

theorem Nullable.derives {α : List (Sym V T)} (h : Nullable g α) : Derives g α [] := by
  induction h with
  | nil => exact .refl
  | @eps α _ ih => exact Derives.trans (.step .refl (Step.eps (x := []) (y := α))) ih
  | @var v β α hr _ _ ih1 ih2 =>
    refine Derives.trans (Derives.rule hr [] α) ?_
    have := Derives.context ih1 [] α
    exact Derives.trans this (by simpa using ih2)

theorem Starts.derives {t : T} {α : List (Sym V T)} (h : Starts g t α) : ∃ β, Derives g α (.term t :: β) := by
  induction h with
  | term => exact ⟨_, .refl⟩
  | @eps α _ ih =>
    obtain ⟨β, ih⟩ := ih
    exact ⟨β, Derives.trans (.step .refl (Step.eps (x := []) (y := α))) ih⟩
  | @inVar v β α hr _ ih =>
    obtain ⟨γ, ih⟩ := ih
    exact ⟨γ ++ α, Derives.trans (Derives.rule hr [] α) (by simpa using Derives.context ih [] α)⟩
  | @skip v β α hr hn _ ih =>
    obtain ⟨γ, ih⟩ := ih
    refine ⟨γ, Derives.trans (Derives.rule hr [] α) (Derives.trans ?_ ih)⟩
    simpa using Derives.context hn.derives [] α

theorem derives_nullable {x : List (Sym V T)} : Derives g x [] ↔ Nullable g x := by
  refine ⟨fun h => ?_, Nullable.derives⟩
  have : ∀ {y}, Derives g x y → Nullable g y → Nullable g x := by
    intro y h
    induction h with
    | refl => exact id
    | step _ hs ih => exact fun hn => ih (Step.nullable hs hn)
  exact this h .nil

theorem derives_starts {x : List (Sym V T)} {t : T} :
    (∃ β, Derives g x (.term t :: β)) ↔ Starts g t x := by
  refine ⟨fun ⟨β, h⟩ => ?_, Starts.derives⟩
  have : ∀ {y}, Derives g x y → Starts g t y → Starts g t x := by
    intro y h
    induction h with
    | refl => exact id
    | step _ hs ih => exact fun hn => ih (Step.starts hs hn)
  exact this h .term

/-! ## FOLLOW -/

theorem Fol.derives {t : T} {v : V} (h : Fol g t v) :
    ∃ w α β, Derives g [.var w] (α ++ .var v :: .term t :: β) := by
  induction h with
  | @here h v pre rest hr hs =>
    obtain ⟨β, hb⟩ := hs.derives
    refine ⟨h, pre, β, Derives.trans (Derives.rule hr [] []) ?_⟩
    have := hb.context (pre ++ [.var v]) []
    simp only [List.append_assoc, List.cons_append, List.nil_append, List.append_nil] at this ⊢
    exact this
  | @up h v pre rest hr hn _ ih =>
    obtain ⟨w, α, β, ih⟩ := ih
    refine ⟨w, α ++ pre, β, ih.trans ((Derives.rule hr α _).trans ?_)⟩
    have := hn.derives.context (α ++ pre ++ [.var v]) (.term t :: β)
    simp only [List.append_assoc, List.cons_append, List.nil_append] at this ⊢
    exact this

/-- Where a symbol of a concatenation is. -/
theorem split_append {α : Type} {x y u v : List α} {a : α} (h : x ++ y = u ++ a :: v) :
    (∃ r, x = u ++ a :: r ∧ v = r ++ y) ∨ (∃ l, u = x ++ l ∧ y = l ++ a :: v) := by
  rcases List.append_eq_append_iff.1 h with ⟨l, h1, h2⟩ | ⟨l, h1, h2⟩
  · exact .inr ⟨l, h1, h2⟩
  · cases l with
    | nil => exact .inr ⟨[], by simpa using h1.symm, by simpa using h2.symm⟩
    | cons b l =>
      simp at h2
      obtain ⟨rfl, h2⟩ := h2
      exact .inl ⟨l, h1, h2⟩

theorem derives_fol {w : V} {γ : List (Sym V T)} (h : Derives g [.var w] γ) {α δ : List (Sym V T)} {v : V}
    {t : T} (hs : γ = α ++ .var v :: δ) (ht : Starts g t δ) : Fol g t v := by
  induction h generalizing α δ v with
  | refl =>
    cases α with
    | nil => simp at hs; rw [hs.2] at ht; cases ht
    | cons a α => simp at hs
  | @step y z _ hstep ih =>
    cases hstep with
    | @rule x y β h hr =>
      rcases split_append hs with ⟨r, rfl, rfl⟩ | ⟨l, rfl, hl⟩
      · refine ih (α := α) (δ := r ++ .var h :: y) (by simp) ?_
        exact Step.starts (Step.rule hr) ht
      · rcases split_append hl with ⟨r, rfl, rfl⟩ | ⟨l, rfl, hl⟩
        · rcases starts_append.1 ht with h1 | ⟨h1, h2⟩
          · exact .here hr h1
          · exact .up hr h1 (ih rfl h2)
        · rename_i hy
          exact ih (α := x ++ .var h :: l) (δ := δ) (by simp [hy]) ht
    | @eps x y =>
      rcases split_append hs with ⟨r, rfl, rfl⟩ | ⟨l, rfl, hl⟩
      · exact ih (α := α) (δ := r ++ .eps :: y) (by simp) (Step.starts Step.eps ht)
      · exact ih (α := x ++ .eps :: l) (δ := δ) (by simp [hl]) ht

theorem derives_follow {v : V} {t : T} :
    (∃ w α β, Derives g [.var w] (α ++ .var v :: .term t :: β)) ↔ Fol g t v :=
  ⟨fun ⟨_, _, _, h⟩ => derives_fol h rfl .term, Fol.derives⟩

end Pango.Parse
