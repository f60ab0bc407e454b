import Verif.Proofs.EndMarker
import Verif.Proofs.Sound
import Verif.Spec.Plugged

/-!
# The items of a grammar with another one in place of a terminal
-/

namespace Pango.Parse

open Pango Pango.Spec

variable {V W T : Type}

/-! ## Grammars without epsilon -/

section plain

variable {g : Grammar V T}

theorem nonEps_fresh (he : EpsFree g) {v : V} {β : Body V T} {i : Item V T} (hr : (v, β) ∈ g.rules) (h : Fresh β i) :
    i = ⟨β, 0⟩ := by
  rw [fresh_iff.1 h]
  cases β with
  | nil => rfl
  | cons x β =>
    cases x with
    | eps => exact absurd (by simp) (he _ _ hr)
    | term t => rfl
    | var v => rfl

theorem nonEps_advance (he : EpsFree g) {h : V} {i j : Item V T} {x : Sym V T} (hr : (h, i.body) ∈ g.rules)
    (ha : Advanced i x j) : ∃ pre post, i = ⟨pre ++ x :: post, pre.length⟩ ∧ j = ⟨pre ++ x :: post, pre.length + 1⟩ := by
  obtain ⟨h1, pre, k, rest, h2, _, h4, h5⟩ := ha
  obtain ⟨b, c⟩ := i
  obtain ⟨b', c'⟩ := j
  simp only at h1 h2 h4 h5 hr
  subst h1
  have : k = 0 := by
    cases k with
    | zero => rfl
    | succ k => exact absurd (by rw [h2]; simp [List.replicate_succ]) (he _ _ hr)
  subst this
  exact ⟨pre, rest, by rw [h2, h4]; simp, by rw [h2, h5]; simp⟩

/-- A string that can be on the stack begins a derived string. -/
theorem nonEps_derives (he : EpsFree g) {γ : List (Sym V T)} {p : V × Item V T} (h : Viable g γ p) :
    ∃ δ ρ, γ = δ ++ p.2.body.take p.2.cursor ∧ Derives g [.var g.start] (δ ++ .var p.1 :: ρ) := by
  induction h with
  | start hr hf =>
    rw [nonEps_fresh he hr hf]
    exact ⟨[], [], by simp, .refl⟩
  | @expand γ h v i j β h1 h2 hr hf ih =>
    rw [nonEps_fresh he hr hf]
    obtain ⟨δ, ρ, h3, h4⟩ := ih
    obtain ⟨pre, post, h5, h6⟩ := h2
    simp only at h3 h4
    refine ⟨γ, post ++ ρ, by simp, ?_⟩
    have h7 := h4.step (.rule (Viable_ok h1).rule)
    simp only [h5] at h7
    rw [h3, h5, h6]
    simpa using h7
  | @read γ h i j x h1 h2 ih =>
    obtain ⟨δ, ρ, h3, h4⟩ := ih
    obtain ⟨pre, post, rfl, rfl⟩ := nonEps_advance he (Viable_ok h1).rule h2
    refine ⟨δ, ρ, ?_, h4⟩
    simp only [List.take_left'] at h3
    rw [h3]
    simp only [List.take_append]
    simp
    exact (List.take_of_length_le (by omega)).symm

theorem nonEps_nullable (hw : ∀ v β, (v, β) ∈ g.rules → β ≠ []) (he : EpsFree g) {α : List (Sym V T)} (hα : .eps ∉ α)
    (h : Nullable g α) : α = [] := by
  induction h with
  | nil => rfl
  | eps _ _ => simp at hα
  | var hr _ _ ih _ => exact absurd (ih (he _ _ hr)) (hw _ _ hr)

theorem nonEps_reads (he : EpsFree g) {γ : List (Sym V T)} {h : V} {i : Item V T} {x : Sym V T} (hv : Viable g γ (h, i))
    (hx : Reads i x) : ∃ ρ, Derives g [.var g.start] (γ ++ x :: ρ) := by
  obtain ⟨δ, ρ, h1, h2⟩ := nonEps_derives he hv
  obtain ⟨pre, post, h3, h4⟩ := hx
  have h5 := h2.step (.rule (Viable_ok hv).rule)
  simp only at h1 h5
  rw [h3] at h5 h1
  rw [h4, List.take_left'] at h1
  · exact ⟨post ++ ρ, by rw [h1]; simpa using h5⟩
  · rfl

/-- What is on the stack is in the rules. -/
theorem viable_mem {γ : List (Sym V T)} {p : V × Item V T} (h : Viable g γ p) : ∀ x ∈ γ, ∃ v β, (v, β) ∈ g.rules ∧ x ∈ β := by
  induction h with
  | start _ _ => simp
  | expand _ _ _ _ ih => exact ih
  | read h1 h2 ih =>
    intro x hx
    rcases List.mem_append.1 hx with hx | hx
    · exact ih x hx
    · obtain rfl := List.mem_singleton.1 hx
      obtain ⟨_, pre, k, rest, h3, _⟩ := h2
      exact ⟨_, _, (Viable_ok h1).rule, by simp only; rw [h3]; simp⟩

theorem fol_hasTerm {t : T} {v : V} (h : Fol g t v) : HasTerm g t := by
  induction h with
  | here hr hs' =>
    rcases hs'.mem with h | ⟨v, β, h1, h2⟩
    · exact ⟨_, _, hr, by simp [h]⟩
    · exact ⟨_, _, h1, h2⟩
  | up _ _ _ ih => exact ih

end plain

/-! ## The rules -/

variable [DecidableEq T] {o : Grammar V T} {i : Grammar W T} {a : T} {H : Grammar (V ⊕ W) T}

theorem plugSym_inj {s : W} {x y : Sym V T} (h : plugSym s a x = plugSym s a y) : x = y := by
  cases x <;> cases y <;> simp only [plugSym] at h <;> (repeat' split at h) <;> simp_all

omit [DecidableEq T] in
theorem innerSym_inj {x y : Sym W T} (h : (innerSym x : Sym (V ⊕ W) T) = innerSym y) : x = y := by
  cases x <;> cases y <;> simp_all [innerSym]

theorem map_inj_of {α β : Type} {f : α → β} (hf : ∀ x y, f x = f y → x = y) {l l' : List α} (h : l.map f = l'.map f) :
    l = l' := by
  induction l generalizing l' with
  | nil => cases l' <;> simp_all
  | cons x l ih =>
    cases l' with
    | nil => simp at h
    | cons y l' =>
      simp only [List.map_cons, List.cons.injEq] at h
      rw [hf _ _ h.1, ih h.2]

theorem plugSym_var {s : W} {x : Sym V T} {v : V ⊕ W} (h : plugSym s a x = .var v) :
    (∃ u, x = .var u ∧ v = .inl u) ∨ (x = .term a ∧ v = .inr s) := by
  cases x with
  | eps => simp [plugSym] at h
  | var u => simp [plugSym] at h; exact .inl ⟨u, rfl, h.symm⟩
  | term t =>
    simp only [plugSym] at h
    split at h
    · rename_i h1
      exact .inr ⟨by rw [h1], by simpa using h.symm⟩
    · cases h

theorem plugSym_term {s : W} {x : Sym V T} {t : T} (h : plugSym s a x = .term t) : x = .term t ∧ t ≠ a := by
  cases x with
  | eps => simp [plugSym] at h
  | var u => simp [plugSym] at h
  | term t =>
    simp only [plugSym] at h
    split at h
    · cases h
    · cases h
      exact ⟨rfl, by assumption⟩

omit [DecidableEq T] in
theorem innerSym_var {x : Sym W T} {v : V ⊕ W} (h : innerSym x = Sym.var v) : ∃ w, x = .var w ∧ v = .inr w := by
  cases x <;> simp [innerSym] at h
  exact ⟨_, rfl, h.symm⟩

omit [DecidableEq T] in
theorem innerSym_term {x : Sym W T} {t : T} (h : (innerSym x : Sym (V ⊕ W) T) = Sym.term t) : x = .term t := by
  cases x <;> simp [innerSym] at h
  rw [h]

omit [DecidableEq T] in
theorem reads_map {X Y : Type} {f : Sym X T → Sym Y T} {β : Body X T} {c : Nat} {x : Sym Y T}
    (h : Reads (⟨β.map f, c⟩ : Item Y T) x) : ∃ y, x = f y ∧ Reads ⟨β, c⟩ y := by
  obtain ⟨pre, post, h1, h2⟩ := h
  simp only at h1 h2
  obtain ⟨pre', r, rfl, rfl, h3⟩ := List.map_eq_append_iff.1 h1
  obtain ⟨y, post', rfl, rfl, rfl⟩ := List.map_eq_cons_iff.1 h3
  exact ⟨y, rfl, pre', post', rfl, by simpa using h2⟩

/-- The grammar with the inner one in place of the hole. -/
structure Plugged (o : Grammar V T) (i : Grammar W T) (a : T) (H : Grammar (V ⊕ W) T) : Prop where
  start : H.start = .inl o.start
  rules : ∀ v β, (v, β) ∈ H.rules ↔ PluggedRule o i a v β

variable [TerminalEq T]

theorem Plugged.epsFree (hH : Plugged o i a H) (hf : Fit o i a) : EpsFree H := by
  intro v β h h'
  cases (hH.rules _ _).1 h with
  | outer h1 =>
    obtain ⟨x, h2, h3⟩ := List.mem_map.1 h'
    cases x with
    | eps => exact hf.outerEps _ _ h1 h2
    | var u => simp [plugSym] at h3
    | term t => simp only [plugSym] at h3; split at h3 <;> cases h3
  | inner h1 =>
    obtain ⟨x, h2, h3⟩ := List.mem_map.1 h'
    cases x with
    | eps => exact hf.innerEps _ _ h1 h2
    | var u => simp [innerSym] at h3
    | term t => simp [innerSym] at h3

theorem Plugged.nonempty (hH : Plugged o i a H) (ho : WellFormed o) (hi : WellFormed i) (v : V ⊕ W) (β : Body (V ⊕ W) T)
    (h : (v, β) ∈ H.rules) : β ≠ [] := by
  cases (hH.rules _ _).1 h with
  | outer h1 => simpa using ho.nonempty _ _ h1
  | inner h1 => simpa using hi.nonempty _ _ h1

/-! ## The items -/

/-- An item of either grammar. -/
inductive PlugItem (o : Grammar V T) (i : Grammar W T) (a : T) :
    List (Sym (V ⊕ W) T) → (V ⊕ W) × Item (V ⊕ W) T → Prop
  | outer {γ : List (Sym V T)} {h : V} {β : Body V T} {c : Nat} : Viable o γ (h, ⟨β, c⟩) →
      PlugItem o i a (γ.map (plugSym i.start a)) (.inl h, ⟨β.map (plugSym i.start a), c⟩)
  | inner {γ : List (Sym V T)} {δ : List (Sym W T)} {h : V} {j : Item V T} {w : W} {β : Body W T} {c : Nat} :
      Viable o γ (h, j) → Reads j (.term a) → Viable i δ (w, ⟨β, c⟩) →
      PlugItem o i a (γ.map (plugSym i.start a) ++ δ.map innerSym) (.inr w, ⟨β.map innerSym, c⟩)

omit [DecidableEq T] [TerminalEq T] in
theorem nonEps_read {g : Grammar V T} (he : EpsFree g) {γ : List (Sym V T)} {h : V} {β : Body V T} {c : Nat} {x : Sym V T}
    (hv : Viable g γ (h, ⟨β, c⟩)) (hx : Reads ⟨β, c⟩ x) : Viable g (γ ++ [x]) (h, ⟨β, c + 1⟩) := by
  refine hv.read ⟨rfl, ?_⟩
  obtain ⟨pre, post, h1, h2⟩ := hx
  simp only at h1 h2
  refine ⟨pre, 0, post, by simpa using h1, ?_, h2, by simp [h2]⟩
  rintro r rfl
  exact he _ _ (Viable_ok hv).rule (by simp only; rw [h1]; simp)

omit [DecidableEq T] [TerminalEq T] in
theorem nonEps_start {g : Grammar V T} (he : EpsFree g) {β : Body V T} (hr : (g.start, β) ∈ g.rules) :
    Viable g [] (g.start, ⟨β, 0⟩) := by
  refine .start hr ⟨rfl, β, by simp, ?_⟩
  rintro r rfl
  exact he _ _ hr (by simp)

omit [DecidableEq T] [TerminalEq T] in
theorem nonEps_expand {g : Grammar V T} (he : EpsFree g) {γ : List (Sym V T)} {h v : V} {i : Item V T} {β : Body V T}
    (hv : Viable g γ (h, i)) (hx : Reads i (.var v)) (hr : (v, β) ∈ g.rules) : Viable g γ (v, ⟨β, 0⟩) := by
  refine .expand hv hx hr ⟨rfl, β, by simp, ?_⟩
  rintro r rfl
  exact he _ _ hr (by simp)

theorem viable_plug (hH : Plugged o i a H) (hf : Fit o i a) {γ : List (Sym (V ⊕ W) T)} {p : (V ⊕ W) × Item (V ⊕ W) T}
    (h : Viable H γ p) : PlugItem o i a γ p := by
  have he := hH.epsFree hf
  induction h with
  | start hr hf' =>
    rw [nonEps_fresh he hr hf']
    rw [hH.start] at hr ⊢
    cases (hH.rules _ _).1 hr with
    | outer h1 => exact .outer (γ := []) (nonEps_start hf.outerEps h1)
  | expand h1 h2 hr hf' ih =>
    rw [nonEps_fresh he hr hf']
    cases ih with
    | outer h3 =>
      obtain ⟨y, h4, h5⟩ := reads_map h2
      rcases plugSym_var h4.symm with ⟨u, rfl, rfl⟩ | ⟨rfl, rfl⟩
      · cases (hH.rules _ _).1 hr with
        | outer h6 => exact .outer (nonEps_expand hf.outerEps h3 h5 h6)
      · cases (hH.rules _ _).1 hr with
        | inner h6 =>
          have := PlugItem.inner h3 h5 (nonEps_start hf.innerEps h6)
          simpa using this
    | inner h3 h4 h5 =>
      obtain ⟨y, h6, h7⟩ := reads_map h2
      obtain ⟨w, rfl, rfl⟩ := innerSym_var h6.symm
      cases (hH.rules _ _).1 hr with
      | inner h8 => exact .inner h3 h4 (nonEps_expand hf.innerEps h5 h7 h8)
  | @read γ h k j x h1 h2 ih =>
    obtain ⟨pre, post, rfl, rfl⟩ := nonEps_advance he (Viable_ok h1).rule h2
    have h2 : Reads (⟨pre ++ x :: post, pre.length⟩ : Item (V ⊕ W) T) x := ⟨pre, post, rfl, rfl⟩
    generalize pre ++ x :: post = b at *
    generalize pre.length = c at *
    cases ih with
    | outer h3 =>
      obtain ⟨y, rfl, h5⟩ := reads_map h2
      have := PlugItem.outer (i := i) (a := a) (nonEps_read hf.outerEps h3 h5)
      simpa using this
    | inner h3 h4 h5 =>
      obtain ⟨y, rfl, h7⟩ := reads_map h2
      have := PlugItem.inner h3 h4 (nonEps_read hf.innerEps h5 h7)
      simpa using this

/-! ## FOLLOW -/

theorem starts_plug (hH : Plugged o i a H) (hf : Fit o i a) (ho : WellFormed o) (hi : WellFormed i) {t : T}
    {X : List (Sym (V ⊕ W) T)} (h : Starts H t X) :
    (∀ α, X = α.map (plugSym i.start a) → (Starts o t α ∧ t ≠ a) ∨ (HasTerm i t ∧ Starts o a α)) ∧
    (∀ α, X = α.map innerSym → Starts i t α) := by
  induction h with
  | term =>
    constructor
    · intro α h
      obtain ⟨x, α', rfl, h1, rfl⟩ := List.map_eq_cons_iff.1 h.symm
      obtain ⟨rfl, h2⟩ := plugSym_term h1
      exact .inl ⟨.term, h2⟩
    · intro α h
      obtain ⟨x, α', rfl, h1, rfl⟩ := List.map_eq_cons_iff.1 h.symm
      rw [innerSym_term h1]
      exact .term
  | eps _ ih =>
    constructor
    · intro α h
      obtain ⟨x, α', rfl, h1, rfl⟩ := List.map_eq_cons_iff.1 h.symm
      have : x = .eps := by
        cases x with
        | eps => rfl
        | var u => simp [plugSym] at h1
        | term t => simp only [plugSym] at h1; split at h1 <;> cases h1
      subst this
      exact (ih.1 _ rfl).imp (fun h => ⟨.eps h.1, h.2⟩) fun h => ⟨h.1, .eps h.2⟩
    · intro α h
      obtain ⟨x, α', rfl, h1, rfl⟩ := List.map_eq_cons_iff.1 h.symm
      have : x = .eps := by cases x <;> simp [innerSym] at h1 ⊢
      subst this
      exact .eps (ih.2 _ rfl)
  | inVar hr h2 ih =>
    constructor
    · intro α h
      obtain ⟨x, α', rfl, h1, rfl⟩ := List.map_eq_cons_iff.1 h.symm
      rcases plugSym_var h1 with ⟨u, rfl, rfl⟩ | ⟨rfl, rfl⟩
      · cases (hH.rules _ _).1 hr with
        | outer h3 => exact (ih.1 _ rfl).imp (fun h => ⟨.inVar h3 h.1, h.2⟩) fun h => ⟨h.1, .inVar h3 h.2⟩
      · cases (hH.rules _ _).1 hr with
        | inner h3 =>
          refine .inr ⟨?_, .term⟩
          rcases (ih.2 _ rfl).mem with h | ⟨v, β, h4, h5⟩
          · exact ⟨_, _, h3, h⟩
          · exact ⟨_, _, h4, h5⟩
    · intro α h
      obtain ⟨x, α', rfl, h1, rfl⟩ := List.map_eq_cons_iff.1 h.symm
      obtain ⟨w, rfl, rfl⟩ := innerSym_var h1
      cases (hH.rules _ _).1 hr with
      | inner h3 => exact .inVar h3 (ih.2 _ rfl)
  | skip hr hn _ _ =>
    exact absurd (nonEps_nullable (hH.nonempty ho hi) (hH.epsFree hf) (hH.epsFree hf _ _ hr) hn) (hH.nonempty ho hi _ _ hr)

theorem plug_split {s : W} {β : Body V T} {pre rest : List (Sym (V ⊕ W) T)} {v : V ⊕ W}
    (h : β.map (plugSym s a) = pre ++ .var v :: rest) :
    ∃ pre' rest', rest = rest'.map (plugSym s a) ∧ ((∃ u, v = .inl u ∧ β = pre' ++ .var u :: rest') ∨
      (v = .inr s ∧ β = pre' ++ .term a :: rest')) := by
  obtain ⟨pre', r, rfl, rfl, h3⟩ := List.map_eq_append_iff.1 h
  obtain ⟨y, rest', rfl, h4, rfl⟩ := List.map_eq_cons_iff.1 h3
  rcases plugSym_var h4 with ⟨u, rfl, rfl⟩ | ⟨rfl, rfl⟩
  · exact ⟨pre', rest', rfl, .inl ⟨u, rfl, rfl⟩⟩
  · exact ⟨pre', rest', rfl, .inr ⟨rfl, rfl⟩⟩

omit [DecidableEq T] [TerminalEq T] in
theorem inner_split {β : Body W T} {pre rest : List (Sym (V ⊕ W) T)} {v : V ⊕ W}
    (h : β.map innerSym = pre ++ .var v :: rest) :
    ∃ pre' rest' w, rest = rest'.map innerSym ∧ v = .inr w ∧ β = pre' ++ .var w :: rest' := by
  obtain ⟨pre', r, rfl, rfl, h3⟩ := List.map_eq_append_iff.1 h
  obtain ⟨y, rest', rfl, h4, rfl⟩ := List.map_eq_cons_iff.1 h3
  obtain ⟨w, rfl, rfl⟩ := innerSym_var h4
  exact ⟨pre', rest', w, rfl, rfl, rfl⟩

omit [DecidableEq T] in
/-- The hole does not follow the hole. -/
theorem _root_.Pango.Spec.Fit.rest (hf : Fit o i a) {h : V} {pre rest : List (Sym V T)} (hr : (h, pre ++ .term a :: rest) ∈ o.rules)
    (hs : Starts o a rest) : False := by
  obtain ⟨β, h1⟩ := derives_starts.2 hs
  have h2 := Derives.rule hr [] []
  have h3 := h1.context (pre ++ [.term a]) []
  simp only [List.nil_append, List.append_nil, List.append_assoc, List.cons_append] at h2 h3
  exact hf.notTwice h pre β (h2.trans h3)

omit [DecidableEq T] in
theorem _root_.Pango.Spec.Fit.last (hf : Fit o i a) {h : V} {pre : List (Sym V T)} (hr : (h, pre ++ [.term a]) ∈ o.rules)
    (hs : Fol o a h) : False := by
  obtain ⟨v, x, y, h1⟩ := inFollow_iff.2 hs
  have h2 := h1.trans (Derives.rule hr x (.term a :: y))
  exact hf.notTwice v (x ++ pre) y (by simpa using h2)

theorem fol_plug (hH : Plugged o i a H) (hf : Fit o i a) (ho : WellFormed o) (hi : WellFormed i) {t : T} {v : V ⊕ W}
    (h : Fol H t v) :
    (∃ u, v = .inl u ∧ ((Fol o t u ∧ t ≠ a) ∨ (HasTerm i t ∧ Fol o a u))) ∨
    (∃ w, v = .inr w ∧ ((Fol i t w) ∨ (CanEnd i w ∧ HasTerm o t))) := by
  have starts : ∀ {h : V} {pre α : List (Sym V T)}, (h, pre ++ α) ∈ o.rules → ∀ {t}, Starts o t α → HasTerm o t := by
    intro h pre α hr t hs
    rcases hs.mem with h | ⟨v, β, h4, h5⟩
    · exact ⟨_, _, hr, by simp [h]⟩
    · exact ⟨_, _, h4, h5⟩
  induction h with
  | @here h v pre rest hr hs =>
    generalize hb : pre ++ .var v :: rest = b at hr
    cases (hH.rules _ _).1 hr with
    | outer h1 =>
      obtain ⟨pre', rest', rfl, ⟨u, rfl, rfl⟩ | ⟨rfl, rfl⟩⟩ := plug_split hb.symm
      · refine .inl ⟨u, rfl, ?_⟩
        exact ((starts_plug hH hf ho hi hs).1 _ rfl).imp (fun h => ⟨.here h1 h.1, h.2⟩) fun h => ⟨h.1, .here h1 h.2⟩
      · refine .inr ⟨_, rfl, .inr ⟨.start, ?_⟩⟩
        rcases (starts_plug hH hf ho hi hs).1 _ rfl with ⟨h2, _⟩ | ⟨_, h2⟩
        · exact starts (pre := pre' ++ [.term a]) (by simpa using h1) h2
        · exact (hf.rest h1 h2).elim
    | inner h1 =>
      obtain ⟨pre', rest', w, rfl, rfl, rfl⟩ := inner_split hb.symm
      exact .inr ⟨w, rfl, .inl (.here h1 ((starts_plug hH hf ho hi hs).2 _ rfl))⟩
  | @up h v pre rest hr hn _ ih =>
    generalize hb : pre ++ .var v :: rest = b at hr
    have hrest : rest = [] := by
      refine nonEps_nullable (hH.nonempty ho hi) (hH.epsFree hf) ?_ hn
      intro h1
      exact hH.epsFree hf _ _ hr (by rw [← hb]; simp [h1])
    cases (hH.rules _ _).1 hr with
    | outer h1 =>
      obtain ⟨pre', rest', h2, ⟨u, rfl, rfl⟩ | ⟨rfl, rfl⟩⟩ := plug_split hb.symm
      · rw [hrest] at h2
        obtain rfl := List.map_eq_nil_iff.1 h2.symm
        refine .inl ⟨u, rfl, ?_⟩
        rcases ih with ⟨_, h3, h4⟩ | ⟨_, h3, _⟩
        · cases h3
          exact h4.imp (fun h => ⟨.up h1 .nil h.1, h.2⟩) fun h => ⟨h.1, .up h1 .nil h.2⟩
        · cases h3
      · rw [hrest] at h2
        obtain rfl := List.map_eq_nil_iff.1 h2.symm
        refine .inr ⟨_, rfl, .inr ⟨.start, ?_⟩⟩
        rcases ih with ⟨_, h3, h4⟩ | ⟨_, h3, _⟩
        · cases h3
          rcases h4 with ⟨h4, _⟩ | ⟨_, h4⟩
          · exact fol_hasTerm h4
          · exact (hf.last h1 h4).elim
        · cases h3
    | inner h1 =>
      obtain ⟨pre', rest', w, h2, rfl, rfl⟩ := inner_split hb.symm
      rw [hrest] at h2
      obtain rfl := List.map_eq_nil_iff.1 h2.symm
      rcases ih with ⟨_, h3, _⟩ | ⟨_, h3, h4⟩
      · cases h3
      · cases h3
        exact .inr ⟨w, rfl, h4.imp (fun h => .up h1 .nil h) fun h => ⟨.last h1 h.1, h.2⟩⟩

theorem canEnd_plug (hH : Plugged o i a H) {v : V ⊕ W} (h : CanEnd H v) :
    (∃ u, v = .inl u ∧ CanEnd o u) ∨ (∃ w, v = .inr w ∧ CanEnd i w) := by
  induction h with
  | start => exact .inl ⟨_, hH.start, .start⟩
  | @last h v pre hr _ ih =>
    generalize hb : pre ++ [.var v] = b at hr
    cases (hH.rules _ _).1 hr with
    | outer h1 =>
      obtain ⟨pre', rest', h2, ⟨u, rfl, rfl⟩ | ⟨rfl, rfl⟩⟩ := plug_split hb.symm
      · obtain rfl := List.map_eq_nil_iff.1 h2.symm
        rcases ih with ⟨_, h3, h4⟩ | ⟨_, h3, _⟩
        · cases h3
          exact .inl ⟨u, rfl, .last h1 h4⟩
        · cases h3
      · exact .inr ⟨_, rfl, .start⟩
    | inner h1 =>
      obtain ⟨pre', rest', w, h2, rfl, rfl⟩ := inner_split hb.symm
      obtain rfl := List.map_eq_nil_iff.1 h2.symm
      rcases ih with ⟨_, h3, _⟩ | ⟨_, h3, h4⟩
      · cases h3
      · cases h3
        exact .inr ⟨w, rfl, .last h1 h4⟩

/-! ## What is on the stack -/

/-- A symbol that both grammars have. -/
theorem plug_inner [LawfulTerminalEq T] (hf : Fit o i a) {x : Sym V T} {y : Sym W T} {v : V} {w : W} {β : Body V T} {β' : Body W T}
    (hx : (v, β) ∈ o.rules) (hx' : x ∈ β) (hy : (w, β') ∈ i.rules) (hy' : y ∈ β')
    (h : plugSym i.start a x = innerSym y) : x = .term a ∧ y = .var i.start := by
  cases y with
  | eps => exact absurd hy' (hf.innerEps _ _ hy)
  | var u =>
    rcases plugSym_var h with ⟨_, _, h1⟩ | ⟨h1, h2⟩
    · cases h1
    · cases h2
      exact ⟨h1, rfl⟩
  | term t =>
    obtain ⟨rfl, _⟩ := plugSym_term h
    have := hf.differ t t ⟨_, _, hx, hx'⟩ ⟨_, _, hy, hy'⟩
    rw [LawfulTerminalEq.refl] at this
    cases this

variable [LawfulTerminalEq T]

/-- The longer outer part has one hole more. -/
theorem plug_longer (hf : Fit o i a) {γ : List (Sym V T)} {δ : List (Sym W T)} {x : Sym V T} {r : List (Sym V T)}
    {rest : List (Sym (V ⊕ W) T)} {p : V × Item V T} {q : W × Item W T} (hp : Viable o (γ ++ x :: r) p) (hq : Viable i δ q)
    (h : δ.map innerSym = (x :: r).map (plugSym i.start a) ++ rest) :
    x = .term a ∧ r = [] ∧ ∃ δ', δ = .var i.start :: δ' ∧ δ'.map innerSym = rest := by
  have hx : ∀ z ∈ x :: r, ∃ v β, (v, β) ∈ o.rules ∧ z ∈ β := fun z hz => viable_mem hp z (by
    rcases List.mem_cons.1 hz with rfl | hz <;> simp_all)
  have hd : ∀ z ∈ δ, ∃ v β, (v, β) ∈ i.rules ∧ z ∈ β := viable_mem hq
  have one : ∀ {y z}, y ∈ x :: r → z ∈ δ → plugSym i.start a y = innerSym z → y = .term a ∧ z = .var i.start := by
    intro y z h1 h2 h3
    obtain ⟨_, _, h4, h5⟩ := hx y h1
    obtain ⟨_, _, h6, h7⟩ := hd z h2
    exact plug_inner hf h4 h5 h6 h7 h3
  simp only [List.map_cons, List.cons_append] at h
  obtain ⟨y, δ', rfl, h1, h2⟩ := List.map_eq_cons_iff.1 h
  obtain ⟨rfl, rfl⟩ := one (by simp) (by simp) h1.symm
  cases r with
  | nil => exact ⟨rfl, rfl, δ', rfl, by simpa using h2⟩
  | cons z r =>
    exfalso
    simp only [List.map_cons, List.cons_append] at h2
    obtain ⟨y, δ'', rfl, h3, _⟩ := List.map_eq_cons_iff.1 h2
    obtain ⟨rfl, _⟩ := one (by simp) (by simp) h3.symm
    obtain ⟨δ0, ρ, h4, h5⟩ := nonEps_derives hf.outerEps hp
    have h6 := h5.step (.rule (Viable_ok hp).rule)
    have h7 : δ0 ++ p.2.body = γ ++ .term a :: .term a :: (r ++ p.2.body.drop p.2.cursor) := by
      have := congrArg (· ++ p.2.body.drop p.2.cursor) h4
      simp only [List.append_assoc, List.take_append_drop, List.cons_append] at this
      exact this.symm
    rw [← List.append_assoc, h7] at h6
    simp only [List.append_assoc, List.cons_append] at h6
    exact hf.notTwice _ _ _ h6

/-- A hole is not read behind a hole. -/
theorem _root_.Pango.Spec.Fit.twice (hf : Fit o i a) {γ : List (Sym V T)} {h : V} {j : Item V T} (hv : Viable o (γ ++ [.term a]) (h, j))
    (hr : Reads j (.term a)) : False := by
  obtain ⟨ρ, h1⟩ := nonEps_reads hf.outerEps hv hr
  exact hf.notTwice _ γ ρ (by simpa using h1)

theorem plug_outer_inner (hf : Fit o i a) {γ γ' : List (Sym V T)} {δ : List (Sym W T)} {p : V × Item V T}
    {q : W × Item W T} (hp : Viable o γ' p) (hq : Viable i δ q)
    (h : γ'.map (plugSym i.start a) = γ.map (plugSym i.start a) ++ δ.map innerSym) :
    (γ' = γ ∧ δ = []) ∨ (γ' = γ ++ [.term a] ∧ δ = [.var i.start]) := by
  obtain ⟨γ1, γ2, rfl, h1, h2⟩ := List.map_eq_append_iff.1 h
  obtain rfl := map_inj_of (fun _ _ => plugSym_inj) h1
  cases γ2 with
  | nil => exact .inl ⟨by simp, by simpa using h2.symm⟩
  | cons x r =>
    obtain ⟨rfl, rfl, δ', rfl, h3⟩ := plug_longer hf (rest := []) hp hq (by simpa using h2.symm)
    obtain rfl := List.map_eq_nil_iff.1 h3
    exact .inr ⟨rfl, rfl⟩

theorem plug_inner_inner (hf : Fit o i a) {γ γ' : List (Sym V T)} {δ δ' : List (Sym W T)} {h h' : V} {j j' : Item V T}
    {q q' : W × Item W T} (hp : Viable o γ (h, j)) (hr : Reads j (.term a)) (hq : Viable i δ q)
    (hp' : Viable o γ' (h', j')) (hr' : Reads j' (.term a)) (hq' : Viable i δ' q')
    (he : γ.map (plugSym i.start a) ++ δ.map innerSym = γ'.map (plugSym i.start a) ++ δ'.map innerSym) :
    γ = γ' ∧ δ = δ' := by
  have wlog : ∀ {γ γ' : List (Sym V T)} {δ δ' : List (Sym W T)} {h' : V} {j' : Item V T} {q : W × Item W T},
      Viable i δ q → Viable o γ' (h', j') → Reads j' (.term a) →
      γ.map (plugSym i.start a) ++ δ.map innerSym = γ'.map (plugSym i.start a) ++ δ'.map innerSym →
      γ.length ≤ γ'.length → γ = γ' ∧ δ = δ' := by
    intro γ γ' δ δ' h' j' q hq hp' hr' he hlen
    rcases List.append_eq_append_iff.1 he with ⟨x, h1, h2⟩ | ⟨x, h1, h2⟩
    · obtain ⟨γ1, γ2, rfl, h3, rfl⟩ := List.map_eq_append_iff.1 h1
      obtain rfl := map_inj_of (fun _ _ => plugSym_inj) h3
      cases γ2 with
      | nil => exact ⟨by simp, map_inj_of (fun _ _ => innerSym_inj) (by simpa using h2)⟩
      | cons x r =>
        obtain ⟨rfl, rfl, _⟩ := plug_longer hf hp' hq h2
        exact (hf.twice hp' hr').elim
    · have : x = [] := by
        have := congrArg List.length h1
        simp at this
        exact List.length_eq_zero_iff.1 (by omega)
      subst this
      exact ⟨map_inj_of (fun _ _ => plugSym_inj) (by simpa using h1), map_inj_of (fun _ _ => innerSym_inj) (by simpa using h2.symm)⟩
  rcases Nat.le_total γ.length γ'.length with hl | hl
  · exact wlog hq hp' hr' he hl
  · obtain ⟨h1, h2⟩ := wlog hq' hp hr he.symm hl
    exact ⟨h1.symm, h2.symm⟩

/-! ## The entries of the table -/

def liftOuter (s : W) (a : T) (p : V × Item V T) : (V ⊕ W) × Item (V ⊕ W) T :=
  (.inl p.1, ⟨p.2.body.map (plugSym s a), p.2.cursor⟩)

def liftInner (p : W × Item W T) : (V ⊕ W) × Item (V ⊕ W) T := (.inr p.1, ⟨p.2.body.map innerSym, p.2.cursor⟩)

inductive PlugEntry (o : Grammar V T) (i : Grammar W T) (a : T) :
    List (Sym (V ⊕ W) T) → Option ((V ⊕ W) × Item (V ⊕ W) T) → Option T → Prop
  | outer {γ : List (Sym V T)} {p : Option (V × Item V T)} {k : Option T} : TableEntry o γ p k →
      (∀ t, k = some t → HasTerm o t) → PlugEntry o i a (γ.map (plugSym i.start a)) (p.map (liftOuter i.start a)) k
  | outerIn {γ : List (Sym V T)} {h : V} {j : Item V T} {t : T} : Viable o γ (h, j) → Complete j → Fol o a h →
      HasTerm i t → PlugEntry o i a (γ.map (plugSym i.start a)) (some (liftOuter i.start a (h, j))) (some t)
  | inner {γ : List (Sym V T)} {δ : List (Sym W T)} {h : V} {j : Item V T} {p : W × Item W T} {t : T} :
      Viable o γ (h, j) → Reads j (.term a) → Viable i δ p → TableEntry i δ (some p) (some t) → HasTerm i t →
      PlugEntry o i a (γ.map (plugSym i.start a) ++ δ.map innerSym) (some (liftInner p)) (some t)
  | innerEnd {γ : List (Sym V T)} {δ : List (Sym W T)} {h : V} {j : Item V T} {p : W × Item W T} {k : Option T} :
      Viable o γ (h, j) → Reads j (.term a) → Viable i δ p → TableEntry i δ (some p) none →
      (∀ t, k = some t → HasTerm o t) →
      PlugEntry o i a (γ.map (plugSym i.start a) ++ δ.map innerSym) (some (liftInner p)) k

omit [LawfulTerminalEq T] in
theorem entry_plug (hH : Plugged o i a H) (hf : Fit o i a) (ho : WellFormed o) (hi : WellFormed i)
    {γ : List (Sym (V ⊕ W) T)} {p : Option ((V ⊕ W) × Item (V ⊕ W) T)} {k : Option T} (h : TableEntry H γ p k) :
    PlugEntry o i a γ p k := by
  cases h with
  | shift h1 h2 =>
    cases viable_plug hH hf h1 with
    | outer h3 =>
      obtain ⟨y, h4, h5⟩ := reads_map h2
      obtain ⟨rfl, _⟩ := plugSym_term h4.symm
      refine .outer (.shift h3 h5) ?_
      rintro _ ⟨⟩
      obtain ⟨pre, post, h6, _⟩ := h5
      exact ⟨_, _, (Viable_ok h3).rule, by simp only at h6 ⊢; rw [h6]; simp⟩
    | inner h3 h4 h5 =>
      obtain ⟨y, h6, h7⟩ := reads_map h2
      obtain rfl := innerSym_term h6.symm
      refine .inner h3 h4 h5 (.shift h5 h7) ?_
      obtain ⟨pre, post, h8, _⟩ := h7
      exact ⟨_, _, (Viable_ok h5).rule, by simp only at h8 ⊢; rw [h8]; simp⟩
  | reduce h1 h2 h3 =>
    have h4 := fol_plug hH hf ho hi (inFollow_iff.1 h3)
    cases viable_plug hH hf h1 with
    | @outer _ _ b c h5 =>
      have hc : Complete (⟨b, c⟩ : Item V T) := by simpa [Complete] using h2
      rcases h4 with ⟨_, h6, h7⟩ | ⟨_, h6, _⟩
      · cases h6
        rcases h7 with ⟨h7, _⟩ | ⟨h7, h8⟩
        · refine .outer (.reduce h5 hc (inFollow_iff.2 h7)) ?_
          rintro _ ⟨⟩
          exact fol_hasTerm h7
        · exact .outerIn h5 hc h8 h7
      · cases h6
    | @inner _ _ _ _ _ b c h5 h6 h7 =>
      have hc : Complete (⟨b, c⟩ : Item W T) := by simpa [Complete] using h2
      rcases h4 with ⟨_, h8, _⟩ | ⟨_, h8, h9⟩
      · cases h8
      · cases h8
        rcases h9 with h9 | ⟨h9, h10⟩
        · exact .inner h5 h6 h7 (.reduce h7 hc (inFollow_iff.2 h9)) (fol_hasTerm h9)
        · refine .innerEnd h5 h6 h7 (.reduceEnd h7 hc h9) ?_
          rintro _ ⟨⟩
          exact h10
  | reduceEnd h1 h2 h3 =>
    have h4 := canEnd_plug hH h3
    cases viable_plug hH hf h1 with
    | @outer _ _ b c h5 =>
      have hc : Complete (⟨b, c⟩ : Item V T) := by simpa [Complete] using h2
      rcases h4 with ⟨_, h6, h7⟩ | ⟨_, h6, _⟩
      · cases h6
        exact .outer (.reduceEnd h5 hc h7) (by simp)
      · cases h6
    | @inner _ _ _ _ _ b c h5 h6 h7 =>
      have hc : Complete (⟨b, c⟩ : Item W T) := by simpa [Complete] using h2
      rcases h4 with ⟨_, h8, _⟩ | ⟨_, h8, h9⟩
      · cases h8
      · cases h8
        exact .innerEnd h5 h6 h7 (.reduceEnd h7 hc h9) (by simp)
  | accept h1 =>
    subst h1
    rw [hH.start]
    have := PlugEntry.outer (i := i) (a := a) (TableEntry.accept (g := o) rfl) (by simp)
    simpa [plugSym] using this

theorem plug_oneEntry (hH : Plugged o i a H) (hf : Fit o i a) (ho : WellFormed o) (hi : WellFormed i)
    (h1 : OneEntryEach o) (h2 : OneEntryEach i) : OneEntryEach H := by
  have apart : ∀ {t u}, HasTerm o t → HasTerm i u → keyEq (some t) (some u) = true → False := by
    intro t u h3 h4 h5
    have := hf.differ t u h3 h4
    simp only [keyEq] at h5
    rw [this] at h5
    cases h5
  have apart' : ∀ {k : Option T} {u}, (∀ t, k = some t → HasTerm o t) → HasTerm i u → keyEq k (some u) = true → False := by
    intro k u h3 h4 h5
    cases k with
    | none => simp [keyEq] at h5
    | some t => exact apart (h3 t rfl) h4 h5
  have symm : ∀ {k k' : Option T}, keyEq k k' = true → keyEq k' k = true := by
    intro k k' h
    cases k <;> cases k' <;> simp [keyEq] at h ⊢
    exact LawfulTerminalEq.symm _ _ h
  have sameOuter : ∀ {k k' : Option T}, (∀ t, k = some t → HasTerm o t) → (∀ t, k' = some t → HasTerm o t) →
      keyEq k k' = true → k = k' := by
    intro k k' h3 h4 h5
    cases k <;> cases k' <;> simp [keyEq] at h5 ⊢
    exact hf.outerKinds _ _ (h3 _ rfl) (h4 _ rfl) h5
  -- inner items behind nothing are not complete
  have fresh : ∀ {p : W × Item W T}, Viable i [] p → ¬ Complete p.2 := by
    intro p h3 h4
    obtain ⟨δ, ρ, h5, _⟩ := nonEps_derives hf.innerEps h3
    have h6 := (List.append_eq_nil_iff.1 h5.symm).2
    rw [h4, List.take_length] at h6
    exact hi.nonempty _ _ (Viable_ok h3).rule h6
  have outerInner : ∀ {γ γ' : List (Sym V T)} {δ : List (Sym W T)} {h : V} {j : Item V T} {p : Option (V × Item V T)}
      {q : W × Item W T} {k k' : Option T}, TableEntry o γ' p k → (∀ t, k = some t → HasTerm o t) →
      Viable o γ (h, j) → Reads j (.term a) → Viable i δ q → TableEntry i δ (some q) none →
      γ'.map (plugSym i.start a) = γ.map (plugSym i.start a) ++ δ.map innerSym → False := by
    intro γ γ' δ h j p q k k' e hk hv hr hq e' he
    have viable : (∃ p, Viable o γ' p) ∨ γ' = [.var o.start] := by
      cases e with
      | shift h3 _ => exact .inl ⟨_, h3⟩
      | reduce h3 _ _ => exact .inl ⟨_, h3⟩
      | reduceEnd h3 _ _ => exact .inl ⟨_, h3⟩
      | accept h3 => exact .inr h3
    have hcomplete : Complete q.2 := by cases e' with | reduceEnd _ h3 _ => exact h3
    have hδ : δ ≠ [] := by
      rintro rfl
      exact fresh hq hcomplete
    rcases viable with ⟨p', h3⟩ | rfl
    · rcases plug_outer_inner hf h3 hq he with ⟨_, h4⟩ | ⟨rfl, rfl⟩
      · exact hδ h4
      · have := (h2 _ _ _ _ _ e' (.accept rfl) rfl).1
        cases this
    · cases δ with
      | nil => exact hδ rfl
      | cons y δ =>
        cases γ with
        | nil =>
          simp only [plugSym, List.map_cons, List.map_nil, List.nil_append, List.cons.injEq] at he
          cases y <;> simp [innerSym] at he
        | cons x γ => simp at he
  have inInner : ∀ {γ γ' : List (Sym V T)} {δ : List (Sym W T)} {h h' : V} {j j' : Item V T}
      {q : W × Item W T} {t : T}, Viable o γ' (h', j') → Complete j' → Fol o a h' →
      Viable o γ (h, j) → Reads j (.term a) → Viable i δ q →
      γ'.map (plugSym i.start a) = γ.map (plugSym i.start a) ++ δ.map innerSym → False := by
    intro γ γ' δ h h' j j' q t hv' hc hfol hv hr hq he
    rcases plug_outer_inner hf hv' hq he with ⟨rfl, _⟩ | ⟨rfl, rfl⟩
    · have := (h1 _ _ _ _ _ (.reduce hv' hc (inFollow_iff.2 hfol)) (.shift hv hr) (LawfulTerminalEq.refl a)).1
      cases this
      obtain ⟨pre, post, h3, h4⟩ := hr
      rw [hc, h3] at h4
      simp at h4
    · obtain ⟨δ, ρ, h3, h4⟩ := nonEps_derives hf.outerEps hv'
      simp only at h3 h4
      rw [hc, List.take_length] at h3
      have hne := ho.nonempty _ _ (Viable_ok hv').rule
      simp only at hne
      obtain ⟨pre, x, h5⟩ : ∃ pre x, j'.body = pre ++ [x] := ⟨_, _, (List.dropLast_concat_getLast hne).symm⟩
      rw [h5, ← List.append_assoc] at h3
      have h6 := (List.append_inj' h3 rfl).2
      simp only [List.cons.injEq, and_true] at h6
      subst h6
      have h7 := (Viable_ok hv').rule
      simp only [h5] at h7
      exact hf.last h7 hfol
  intro γ p p' k k' e0 e0' hk
  have e := entry_plug hH hf ho hi e0
  have e' := entry_plug hH hf ho hi e0'
  clear e0 e0'
  generalize hγ : γ = γ' at e'
  cases e with
  | outer e1 t1 =>
    cases e' with
    | outer e2 t2 =>
      obtain rfl := map_inj_of (fun _ _ => plugSym_inj) hγ
      obtain ⟨rfl, rfl⟩ := h1 _ _ _ _ _ e1 e2 hk
      exact ⟨rfl, rfl⟩
    | outerIn _ _ _ t2 => exact (apart' t1 t2 hk).elim
    | inner _ _ _ _ t2 => exact (apart' t1 t2 hk).elim
    | innerEnd v r q e2 t2 => exact (outerInner (k' := none) e1 t1 v r q e2 hγ).elim
  | outerIn v1 c1 f1 t1 =>
    cases e' with
    | outer _ t2 => exact (apart' t2 t1 (symm hk)).elim
    | outerIn v2 c2 f2 t2 =>
      obtain rfl := map_inj_of (fun _ _ => plugSym_inj) hγ
      obtain ⟨h3, _⟩ := h1 _ _ _ _ _ (.reduce v1 c1 (inFollow_iff.2 f1)) (.reduce v2 c2 (inFollow_iff.2 f2))
        (LawfulTerminalEq.refl a)
      cases h3
      exact ⟨rfl, by rw [hf.innerKinds _ _ t1 t2 hk]⟩
    | @inner _ _ _ _ _ t v r q _ _ => exact (inInner (t := t) v1 c1 f1 v r q hγ).elim
    | innerEnd _ _ _ _ t2 => exact (apart' t2 t1 (symm hk)).elim
  | @inner _ _ _ _ _ t v1 r1 q1 e1 t1 =>
    cases e' with
    | outer _ t2 => exact (apart' t2 t1 (symm hk)).elim
    | outerIn v2 c2 f2 t2 => exact (inInner (t := t) v2 c2 f2 v1 r1 q1 hγ.symm).elim
    | inner v2 r2 q2 e2 t2 =>
      obtain ⟨rfl, rfl⟩ := plug_inner_inner hf v1 r1 q1 v2 r2 q2 hγ
      obtain ⟨h3, h4⟩ := h2 _ _ _ _ _ e1 e2 hk
      cases h3
      exact ⟨rfl, h4⟩
    | innerEnd _ _ _ _ t2 => exact (apart' t2 t1 (symm hk)).elim
  | innerEnd v1 r1 q1 e1 t1 =>
    cases e' with
    | outer e2 t2 => exact (outerInner (k' := none) e2 t2 v1 r1 q1 e1 hγ.symm).elim
    | outerIn _ _ _ t2 => exact (apart' t1 t2 hk).elim
    | inner _ _ _ _ t2 => exact (apart' t1 t2 hk).elim
    | innerEnd v2 r2 q2 e2 t2 =>
      obtain ⟨rfl, rfl⟩ := plug_inner_inner hf v1 r1 q1 v2 r2 q2 hγ
      obtain ⟨h3, _⟩ := h2 _ _ _ _ _ e1 e2 rfl
      cases h3
      exact ⟨rfl, sameOuter t1 t2 hk⟩

end Pango.Parse
