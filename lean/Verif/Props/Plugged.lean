import Verif.Proofs.Plugged
import Verif.Props.RegularTokens
import Verif.Props.MoreRules

/-!
# C107: a grammar can be used inside of another one

If two grammars have parsers, so has the grammar in which the sentences of one stand in place of a terminal of the
other.
-/

namespace Pango.Props

open Pango Pango.Parse Pango.Spec

variable {V W T : Type} [DecidableEq V] [DecidableEq W] [DecidableEq T] {o : Grammar V T} {i : Grammar W T} {a : T}
  {H : Grammar (V ⊕ W) T}

/-- C107, the grammar can be built. -/
theorem c107_grammar (ho : Built o) (hi : Built i) (a : T) :
    ∃ H : Grammar (V ⊕ W) T, Built H ∧ H.start = .inl o.start ∧ ∀ v β, (v, β) ∈ H.rules ↔ PluggedRule o i a v β := by
  have ho := ho.wellFormed
  have hi := hi.wellFormed
  let rules : List ((V ⊕ W) × Body (V ⊕ W) T) :=
    (o.rules.map fun r => (.inl r.1, r.2.map (plugSym i.start a))) ++ i.rules.map fun r => (.inr r.1, r.2.map innerSym)
  have hr : ∀ v β, (v, β) ∈ rules ↔ PluggedRule o i a v β := by
    intro v β
    constructor
    · intro h
      rcases List.mem_append.1 h with h | h
      · obtain ⟨⟨v, b⟩, h1, h2⟩ := List.mem_map.1 h
        cases h2
        exact .outer h1
      · obtain ⟨⟨v, b⟩, h1, h2⟩ := List.mem_map.1 h
        cases h2
        exact .inner h1
    · intro h
      cases h with
      | outer h => exact List.mem_append_left _ (List.mem_map.2 ⟨_, h, rfl⟩)
      | inner h => exact List.mem_append_right _ (List.mem_map.2 ⟨_, h, rfl⟩)
  obtain ⟨H, h1, h2, h3⟩ := built_rules (Sum.inl o.start) rules
    (by obtain ⟨β, h⟩ := ho.start; exact ⟨_, (hr _ _).2 (.outer h)⟩)
    (by
      intro v β w h h'
      cases (hr _ _).1 h with
      | outer h1 =>
        obtain ⟨x, h2, h3⟩ := List.mem_map.1 h'
        rcases plugSym_var h3 with ⟨u, rfl, rfl⟩ | ⟨rfl, rfl⟩
        · obtain ⟨γ, h4⟩ := ho.closed _ _ _ h1 h2
          exact ⟨_, (hr _ _).2 (.outer h4)⟩
        · obtain ⟨γ, h4⟩ := hi.start
          exact ⟨_, (hr _ _).2 (.inner h4)⟩
      | inner h1 =>
        obtain ⟨x, h2, h3⟩ := List.mem_map.1 h'
        obtain ⟨u, rfl, rfl⟩ := innerSym_var h3
        obtain ⟨γ, h4⟩ := hi.closed _ _ _ h1 h2
        exact ⟨_, (hr _ _).2 (.inner h4)⟩)
    (by
      intro v β h
      cases (hr _ _).1 h with
      | outer h1 => simpa using ho.nonempty _ _ h1
      | inner h1 => simpa using hi.nonempty _ _ h1)
  exact ⟨H, h1, h2, fun v β => (h3 v β).trans (hr v β)⟩

variable [TerminalEq T] [LawfulTerminalEq T]

/-- C107.  If both grammars have parsers, with end markers of their own, and fit, there is a parser for the grammar with
the inner one in place of the hole, whatever the iteration order. -/
theorem c107_parser (ho : Built o) (hi : Built i) (hH : Built H) (hs : H.start = .inl o.start)
    (hr : ∀ v β, (v, β) ∈ H.rules ↔ PluggedRule o i a v β) (hf : Fit o i a)
    {zo : V} {eo fo : T} {tblo : Table V T} (hno : NotIn o zo eo fo) (hpo : IsParser (withEnd o zo eo fo) tblo)
    {zi : W} {ei fi : T} {tbli : Table W T} (hni : NotIn i zi ei fi) (hpi : IsParser (withEnd i zi ei fi) tbli)
    {z : V ⊕ W} {e f : T} (hn : NotIn H z e f) :
    (∃ tbl, IsParser (withEnd H z e f) tbl) ∧
    ∃ bound, ∀ fuel ≥ bound, ∀ ord : HashOrder, ∃ tbl, slrNew (withEnd H z e f) ord fuel = .ok tbl := by
  have hpl : Plugged o i a H := ⟨hs, hr⟩
  have h1 := plug_oneEntry hpl hf ho.wellFormed hi.wellFormed ((c86_table ho hf.outerEps hno).1.1 ⟨_, hpo⟩)
    ((c86_table hi hf.innerEps hni).1.1 ⟨_, hpi⟩)
  obtain ⟨h2, bound, h3⟩ := c86_table hH (hpl.epsFree hf) hn
  exact ⟨h2.2 h1, bound, fun fuel hf ord => (h3 fuel hf ord).2 h1⟩

/-! ## The sentences -/

omit [DecidableEq T] [LawfulTerminalEq T] in
private theorem filled_append {P : List T → Prop} {u u' w w' : List T} (h : Filled a P u w) (h' : Filled a P u' w') :
    Filled a P (u ++ u') (w ++ w') := by
  induction h with
  | nil => exact h'
  | keep h1 _ ih => exact .keep h1 ih
  | fill h1 h2 _ ih =>
    rw [List.append_assoc]
    exact .fill h1 h2 ih

omit [DecidableEq T] [LawfulTerminalEq T] in
private theorem filled_split {P : List T → Prop} {u u' w : List T} (h : Filled a P (u ++ u') w) :
    ∃ x y, w = x ++ y ∧ Filled a P u x ∧ Filled a P u' y := by
  induction u generalizing w with
  | nil => exact ⟨[], w, rfl, .nil, h⟩
  | cons t u ih =>
    cases h with
    | keep h1 h2 =>
      obtain ⟨x, y, rfl, h3, h4⟩ := ih h2
      exact ⟨t :: x, y, rfl, .keep h1 h3, h4⟩
    | fill h1 h2 h3 =>
      obtain ⟨x, y, rfl, h4, h5⟩ := ih h3
      exact ⟨_, y, (List.append_assoc ..).symm, .fill h1 h2 h4, h5⟩

/-- The terminals are in the rules. -/
private def Known (g : Grammar V T) (α : List (Sym V T)) : Prop := ∀ t, .term t ∈ α → HasTerm g t

omit [DecidableEq V] [DecidableEq W] in
private theorem forest_out (hr : ∀ v β, (v, β) ∈ H.rules ↔ PluggedRule o i a v β) (hf : Fit o i a)
    {X : List (Sym (V ⊕ W) T)} {ns : List (Node (V ⊕ W) T)} {w : List T} (h : Forest H X ns w) :
    (∀ α, X = α.map (plugSym i.start a) → Known o α →
      ∃ ms u, Forest o α ms u ∧ Filled a (fun x => ∃ m, ParseTree i m x) u w) ∧
    (∀ α, X = α.map innerSym → ∃ ms, Forest i α ms w) := by
  induction h with
  | nil =>
    constructor
    · intro α h _
      obtain rfl := List.map_eq_nil_iff.1 h.symm
      exact ⟨[], [], .nil, .nil⟩
    · intro α h
      obtain rfl := List.map_eq_nil_iff.1 h.symm
      exact ⟨[], .nil⟩
  | eps _ ih =>
    constructor
    · intro α h hk
      obtain ⟨x, α', rfl, h1, rfl⟩ := List.map_eq_cons_iff.1 h.symm
      have : x = .eps := by
        cases x with
        | eps => rfl
        | var u => simp [plugSym] at h1
        | term t => simp only [plugSym] at h1; split at h1 <;> cases h1
      subst this
      obtain ⟨ms, u, h2, h3⟩ := ih.1 _ rfl fun t ht => hk t (List.mem_cons_of_mem _ ht)
      exact ⟨ms, u, .eps h2, h3⟩
    · intro α h
      obtain ⟨x, α', rfl, h1, rfl⟩ := List.map_eq_cons_iff.1 h.symm
      have : x = .eps := by cases x <;> simp [innerSym] at h1 ⊢
      subst this
      obtain ⟨ms, h2⟩ := ih.2 _ rfl
      exact ⟨ms, .eps h2⟩
  | @term t u _ _ _ ht _ ih =>
    constructor
    · intro α h hk
      obtain ⟨x, α', rfl, h1, rfl⟩ := List.map_eq_cons_iff.1 h.symm
      obtain ⟨rfl, hta⟩ := plugSym_term h1
      obtain ⟨ms, v, h2, h3⟩ := ih.1 _ rfl fun t ht => hk t (List.mem_cons_of_mem _ ht)
      refine ⟨_, _, .term ht h2, .keep ?_ h3⟩
      cases hau : teq a u with
      | false => rfl
      | true =>
        exact absurd (hf.outerKinds _ _ (hk t (by simp)) hf.hole
          (LawfulTerminalEq.trans _ _ _ ht (LawfulTerminalEq.symm _ _ hau))) hta
    · intro α h
      obtain ⟨x, α', rfl, h1, rfl⟩ := List.map_eq_cons_iff.1 h.symm
      obtain rfl := innerSym_term h1
      obtain ⟨ms, h2⟩ := ih.2 _ rfl
      exact ⟨_, .term ht h2⟩
  | var hrule _ _ ih1 ih2 =>
    constructor
    · intro α h hk
      obtain ⟨x, α', rfl, h1, rfl⟩ := List.map_eq_cons_iff.1 h.symm
      obtain ⟨ms, v, h2, h3⟩ := ih2.1 _ rfl fun t ht => hk t (List.mem_cons_of_mem _ ht)
      rcases plugSym_var h1 with ⟨u, rfl, rfl⟩ | ⟨rfl, rfl⟩
      · cases (hr _ _).1 hrule with
        | outer h4 =>
          obtain ⟨cs, y, h5, h6⟩ := ih1.1 _ rfl fun t ht => ⟨_, _, h4, ht⟩
          exact ⟨_, _, .var h4 h5 h2, filled_append h6 h3⟩
      · cases (hr _ _).1 hrule with
        | inner h4 =>
          obtain ⟨cs, h5⟩ := ih1.2 _ rfl
          refine ⟨_, _, .term (LawfulTerminalEq.refl a) h2, .fill (LawfulTerminalEq.refl a) ?_ h3⟩
          have := Forest.var h4 h5 .nil
          rw [List.append_nil] at this
          exact ⟨_, this⟩
    · intro α h
      obtain ⟨x, α', rfl, h1, rfl⟩ := List.map_eq_cons_iff.1 h.symm
      obtain ⟨w, rfl, rfl⟩ := innerSym_var h1
      obtain ⟨ms, h2⟩ := ih2.2 _ rfl
      cases (hr _ _).1 hrule with
      | inner h4 =>
        obtain ⟨cs, h5⟩ := ih1.2 _ rfl
        exact ⟨_, .var h4 h5 h2⟩

omit [DecidableEq V] [DecidableEq W] [LawfulTerminalEq T] in
private theorem forest_inner (hr : ∀ v β, (v, β) ∈ H.rules ↔ PluggedRule o i a v β) {α : List (Sym W T)}
    {ms : List (Node W T)} {w : List T} (h : Forest i α ms w) : ∃ ns, Forest H (α.map innerSym) ns w := by
  induction h with
  | nil => exact ⟨_, .nil⟩
  | eps _ ih => obtain ⟨ns, h⟩ := ih; exact ⟨ns, .eps h⟩
  | term ht _ ih => obtain ⟨ns, h⟩ := ih; exact ⟨_, .term ht h⟩
  | var h1 _ _ ih1 ih2 =>
    obtain ⟨cs, h2⟩ := ih1
    obtain ⟨ns, h3⟩ := ih2
    exact ⟨_, .var ((hr _ _).2 (.inner h1)) h2 h3⟩

omit [DecidableEq V] [DecidableEq W] in
private theorem forest_in (hr : ∀ v β, (v, β) ∈ H.rules ↔ PluggedRule o i a v β) (hf : Fit o i a) {α : List (Sym V T)}
    {ms : List (Node V T)} {u : List T} (h : Forest o α ms u) (hk : Known o α) {w : List T}
    (hw : Filled a (fun x => ∃ m, ParseTree i m x) u w) : ∃ ns, Forest H (α.map (plugSym i.start a)) ns w := by
  induction h generalizing w with
  | nil => cases hw; exact ⟨_, .nil⟩
  | eps _ ih =>
    obtain ⟨ns, h⟩ := ih (fun t ht => hk t (List.mem_cons_of_mem _ ht)) hw
    exact ⟨ns, .eps h⟩
  | @term t u α ns v ht _ ih =>
    have hk' : Known o α := fun t ht => hk t (List.mem_cons_of_mem _ ht)
    cases hw with
    | keep h1 h2 =>
      obtain ⟨ns, h⟩ := ih hk' h2
      have hta : t ≠ a := by
        rintro rfl
        rw [ht] at h1
        cases h1
      simp only [List.map_cons, plugSym, if_neg hta]
      exact ⟨_, .term ht h⟩
    | fill h1 h2 h3 =>
      obtain ⟨ns, h⟩ := ih hk' h3
      have hta : t = a := hf.outerKinds _ _ (hk t (by simp)) hf.hole
        (LawfulTerminalEq.trans _ _ _ ht (LawfulTerminalEq.symm _ _ h1))
      subst hta
      simp only [List.map_cons, plugSym, if_true]
      obtain ⟨m, h4⟩ := h2
      obtain ⟨ns', h5⟩ := forest_inner hr h4
      exact ⟨_, forest_append h5 h⟩
  | var h1 _ _ ih1 ih2 =>
    obtain ⟨x, y, rfl, h2, h3⟩ := filled_split hw
    obtain ⟨cs, h4⟩ := ih1 (fun t ht => ⟨_, _, h1, ht⟩) h2
    obtain ⟨ns, h5⟩ := ih2 (fun t ht => hk t (List.mem_cons_of_mem _ ht)) h3
    exact ⟨_, .var ((hr _ _).2 (.outer h1)) h4 h5⟩

omit [DecidableEq V] [DecidableEq W] in
/-- C107.  The sentences are those of the outer grammar, with a sentence of the inner grammar in place of each hole. -/
theorem c107_sentences (hs : H.start = .inl o.start) (hr : ∀ v β, (v, β) ∈ H.rules ↔ PluggedRule o i a v β)
    (hf : Fit o i a) (w : List T) : (∃ n, ParseTree H n w) ↔
      ∃ u, (∃ m, ParseTree o m u) ∧ Filled a (fun x => ∃ m, ParseTree i m x) u w := by
  have one : ∀ {X : Type} {g : Grammar X T} {v : X} {ns : List (Node X T)} {w : List T}, Forest g [.var v] ns w →
      ∃ n, ns = [n] := by
    intro X g v ns w h
    cases h with
    | var _ _ h1 => cases h1; exact ⟨_, rfl⟩
  constructor
  · rintro ⟨n, h⟩
    rw [ParseTree, hs] at h
    obtain ⟨ms, u, h1, h2⟩ := (forest_out hr hf h).1 [.var o.start] rfl (by simp [Known])
    obtain ⟨m, rfl⟩ := one h1
    exact ⟨u, ⟨m, h1⟩, h2⟩
  · rintro ⟨u, ⟨m, h⟩, hw⟩
    obtain ⟨ns, h1⟩ := forest_in hr hf h (by simp [Known]) hw
    obtain ⟨n, rfl⟩ := one h1
    exact ⟨n, by rw [ParseTree, hs]; exact h1⟩

omit [DecidableEq V] [DecidableEq W] [TerminalEq T] [LawfulTerminalEq T] in
theorem starts_in (hr : ∀ v β, (v, β) ∈ H.rules ↔ PluggedRule o i a v β) {t : T} {α : List (Sym W T)}
    (h : Starts i t α) (he : EpsFree i) (hw : Spec.WellFormed i) (hα : .eps ∉ α) : Starts H t (α.map innerSym) := by
  induction h with
  | term => exact .term
  | eps _ _ => simp at hα
  | inVar h1 _ ih => exact .inVar ((hr _ _).2 (.inner h1)) (ih (he _ _ h1))
  | skip h1 h2 _ _ => exact absurd (nonEps_nullable hw.nonempty he (he _ _ h1) h2) (hw.nonempty _ _ h1)

omit [DecidableEq V] [DecidableEq W] [TerminalEq T] [LawfulTerminalEq T] in
private theorem starts_out (hr : ∀ v β, (v, β) ∈ H.rules ↔ PluggedRule o i a v β) {t t' : T} {α : List (Sym V T)}
    (hi : Starts H t' [.var (.inr i.start)]) (h : Starts o t α) (he : EpsFree o) (hw : Spec.WellFormed o) (hα : .eps ∉ α) :
    ∃ u, Starts H u (α.map (plugSym i.start a)) := by
  induction h with
  | @term α =>
    simp only [List.map_cons, plugSym]
    split
    · cases hi with
      | inVar h1 h2 => exact ⟨_, .inVar h1 h2⟩
      | skip _ _ h => cases h
    · exact ⟨_, .term⟩
  | eps _ _ => simp at hα
  | inVar h1 _ ih =>
    obtain ⟨u, h⟩ := ih (he _ _ h1)
    exact ⟨u, .inVar ((hr _ _).2 (.outer h1)) h⟩
  | skip h1 h2 _ _ => exact absurd (nonEps_nullable hw.nonempty he (he _ _ h1) h2) (hw.nonempty _ _ h1)

/-- C107.  If every variable of both grammars can be reached and has a FIRST set, the parser returns on every input, after
a number of iterations that is linear in its length: a tree if the input is a sentence of the outer grammar with
sentences of the inner one in place of the holes, and the end marker, and otherwise an error. -/
theorem c107_reads (ho : Built o) (hi : Built i) (hH : Built H) (hs : H.start = .inl o.start)
    (hr : ∀ v β, (v, β) ∈ H.rules ↔ PluggedRule o i a v β) (hf : Fit o i a)
    (hro : ∀ v β, (v, β) ∈ o.rules → Reachable o v) (hri : ∀ v β, (v, β) ∈ i.rules → Reachable i v)
    (hfo : ∀ v β, (v, β) ∈ o.rules → ∃ t, InFirst o [.var v] (.term t))
    (hfi : ∀ v β, (v, β) ∈ i.rules → ∃ t, InFirst i [.var v] (.term t))
    {z : V ⊕ W} {e f : T} (hn : NotIn H z e f) {tbl : Table (V ⊕ W) T} (hp : IsParser (withEnd H z e f) tbl)
    {input : List T} (hin : ∀ t ∈ input, teq f t = false) {fuel : Nat}
    (hfuel : (2 * input.length + 1) * (H.rules.length + 4) < fuel) :
    ∃ r, parseTokens tbl fuel input = .ok r ∧ (r.isSome = true ↔ ∃ w e' u, input = w ++ [e'] ∧ teq e e' = true ∧
      (∃ m, ParseTree o m u) ∧ Filled a (fun x => ∃ m, ParseTree i m x) u w) := by
  have hpl : Plugged o i a H := ⟨hs, hr⟩
  have outer : ∀ {v}, Reachable o v → Reachable H (.inl v) := by
    intro v h
    induction h with
    | start => rw [← hs]; exact .start
    | step _ h1 h2 ih => exact .step ih ((hr _ _).2 (.outer h1)) (List.mem_map.2 ⟨_, h2, rfl⟩)
  have inner : ∀ {w}, Reachable i w → Reachable H (.inr w) := by
    intro w h
    induction h with
    | start =>
      obtain ⟨v, β, h1, h2⟩ := hf.hole
      exact .step (outer (hro _ _ h1)) ((hr _ _).2 (.outer h1)) (List.mem_map.2 ⟨_, h2, by simp [plugSym]⟩)
    | step _ h1 h2 ih => exact .step ih ((hr _ _).2 (.inner h1)) (List.mem_map.2 ⟨_, h2, rfl⟩)
  have first : ∀ w β, (w, β) ∈ i.rules → ∃ t, Starts H t [.var (.inr w)] := by
    intro w β h
    obtain ⟨t, h1⟩ := hfi w β h
    exact ⟨t, starts_in hr (derives_starts.1 h1) hf.innerEps hi.wellFormed (by simp)⟩
  obtain ⟨r, h1, h2⟩ := c86_reads hH (hpl.epsFree hf)
    (by
      intro v β h
      cases (hr _ _).1 h with
      | outer h1 => exact outer (hro _ _ h1)
      | inner h1 => exact inner (hri _ _ h1))
    (by
      intro v β h
      cases (hr _ _).1 h with
      | outer h1 =>
        obtain ⟨β', h3⟩ := hi.wellFormed.start
        obtain ⟨t', h4⟩ := first _ _ h3
        obtain ⟨t, h2⟩ := hfo _ _ h1
        obtain ⟨u, h5⟩ := starts_out hr h4 (derives_starts.1 h2) hf.outerEps ho.wellFormed (by simp)
        exact ⟨u, derives_starts.2 h5⟩
      | inner h1 =>
        obtain ⟨t, h2⟩ := first _ _ h1
        exact ⟨t, derives_starts.2 h2⟩) hn hp hin hfuel
  refine ⟨r, h1, ?_⟩
  constructor
  · intro h
    obtain ⟨n, rfl⟩ := Option.isSome_iff_exists.1 h
    obtain ⟨w, e', m, h3, h4, h5, _⟩ := (h2 n).1 rfl
    obtain ⟨u, h6, h7⟩ := (c107_sentences hs hr hf w).1 ⟨m, h5⟩
    exact ⟨w, e', u, h3, h4, h6, h7⟩
  · rintro ⟨w, e', u, h3, h4, h5, h6⟩
    obtain ⟨m, h7⟩ := (c107_sentences hs hr hf w).2 ⟨u, h5, h6⟩
    rw [(h2 _).2 ⟨w, e', m, h3, h4, h7, rfl⟩]
    rfl

/-! ## A list of sums -/

private theorem list_rule {v : String} {β : Body String String} (h : (v, β) ∈ listGrammar.rules) :
    v = "S" ∧ β = [.var "S", .term ";", .var "A"] ∨ v = "S" ∧ β = [.var "A"] ∨ v = "A" ∧ β = [.term "x"] := by
  simpa [listGrammar] using h

private theorem sums_rule {v : String} {β : Body String String} (h : (v, β) ∈ sums.rules) :
    v = "S" ∧ (β = [.var "S", .term "+", .term "n"] ∨ β = [.term "n"]) := by
  have h : v = "S" ∧ β = [.var "S", .term "+", .term "n"] ∨ v = "S" ∧ β = [.term "n"] := by simpa [sums] using h
  rcases h with ⟨h1, h2⟩ | ⟨h1, h2⟩
  · exact ⟨h1, .inl h2⟩
  · exact ⟨h1, .inr h2⟩

/-- Of two symbols of a list that stand next to each other one is the separator. -/
private theorem list_chain {v : String} {α : List (Sym String String)} (h : Derives listGrammar [.var v] α) :
    α.IsChain fun x y => x = .term ";" ∨ y = .term ";" := by
  generalize ha : [Sym.var v] = a at h
  induction h with
  | refl => subst ha; simp
  | step _ h2 ih =>
    cases h2 with
    | @rule x y β v h2 =>
      rw [List.isChain_append] at ih ⊢
      obtain ⟨i1, i2, i3⟩ := ih
      have j : ∀ a ∈ x.getLast?, a = .term ";" := by
        intro a ha
        simpa using i3 a ha
      rcases list_rule h2 with ⟨rfl, rfl⟩ | ⟨rfl, rfl⟩ | ⟨rfl, rfl⟩ <;>
        refine ⟨i1, ?_, fun a ha b _ => .inl (j a ha)⟩ <;> cases y <;> simp at i2 ⊢ <;>
        obtain ⟨rfl, i2⟩ := i2 <;> first | exact i2 | exact ⟨rfl, i2⟩
    | @eps x y =>
      rw [List.isChain_append] at ih ⊢
      obtain ⟨i1, i2, i3⟩ := ih
      refine ⟨i1, i2.tail, fun a ha b hb => .inl ?_⟩
      simpa using i3 a ha

theorem listOfSums_fit : Fit listGrammar sums "x" where
  outerEps := list_epsFree
  innerEps := by
    intro v β h
    rcases (sums_rule h).2 with rfl | rfl <;> simp
  outerKinds t u _ _ h := by simpa [teq] using h
  innerKinds t u _ _ h := by simpa [teq] using h
  differ := by
    rintro t u ⟨v, β, h1, h2⟩ ⟨v', β', h3, h4⟩
    rcases list_rule h1 with ⟨_, rfl⟩ | ⟨_, rfl⟩ | ⟨_, rfl⟩ <;> rcases (sums_rule h3).2 with rfl | rfl <;>
      simp at h2 h4 <;> (try rcases h4 with rfl | rfl) <;> subst_vars <;> decide
  hole := ⟨"A", [.term "x"], by decide, List.mem_cons_self⟩
  notTwice v x y h := by
    have := list_chain h
    rw [List.isChain_append] at this
    simp at this

/-- `S → S ; A | A`, `A → E`, `E → E + n | n`. -/
def listOfSums : Grammar (String ⊕ String) String :=
  ⟨.inl "S", [(.inl "S", [.var (.inl "S"), .term ";", .var (.inl "A")]), (.inl "S", [.var (.inl "A")]),
    (.inl "A", [.var (.inr "S")]), (.inr "S", [.var (.inr "S"), .term "+", .term "n"]), (.inr "S", [.term "n"])]⟩

theorem listOfSums_built : Built listOfSums :=
  ⟨[.setStart (.inl "S"), .addRules (.inl "S") [[.var (.inl "S"), .term ";", .var (.inl "A")], [.var (.inl "A")]],
    .addRules (.inl "A") [[.var (.inr "S")]],
    .addRules (.inr "S") [[.var (.inr "S"), .term "+", .term "n"], [.term "n"]]], by decide⟩

theorem listOfSums_rules (v : String ⊕ String) (β : Body (String ⊕ String) String) :
    (v, β) ∈ listOfSums.rules ↔ PluggedRule listGrammar sums "x" v β := by
  constructor
  · intro h
    have h : v = .inl "S" ∧ β = [.var (.inl "S"), .term ";", .var (.inl "A")] ∨ v = .inl "S" ∧ β = [.var (.inl "A")] ∨
        v = .inl "A" ∧ β = [.var (.inr "S")] ∨ v = .inr "S" ∧ β = [.var (.inr "S"), .term "+", .term "n"] ∨
        v = .inr "S" ∧ β = [.term "n"] := by simpa [listOfSums] using h
    rcases h with ⟨rfl, rfl⟩ | ⟨rfl, rfl⟩ | ⟨rfl, rfl⟩ | ⟨rfl, rfl⟩ | ⟨rfl, rfl⟩
    · exact .outer (o := listGrammar) (β := [.var "S", .term ";", .var "A"]) (by decide)
    · exact .outer (o := listGrammar) (β := [.var "A"]) (by decide)
    · exact .outer (o := listGrammar) (β := [.term "x"]) (by decide)
    · exact .inner (i := sums) (β := [.var "S", .term "+", .term "n"]) (by decide)
    · exact .inner (i := sums) (β := [.term "n"]) (by decide)
  · intro h
    cases h with
    | outer h => rcases list_rule h with ⟨rfl, rfl⟩ | ⟨rfl, rfl⟩ | ⟨rfl, rfl⟩ <;> simp [listOfSums, plugSym, sums]
    | @inner v β h =>
      obtain ⟨h1, h2⟩ := sums_rule h
      rcases h2 with h2 | h2 <;> rw [h1, h2] <;> simp [listOfSums, innerSym]

theorem sums_notIn : NotIn sums "Z" "$" "#" where
  head β h := absurd (sums_rule h).1 (by decide)
  marker v β t h ht := by
    rcases (sums_rule h).2 with rfl | rfl <;> simp at ht <;> (try rcases ht with rfl | rfl) <;> subst_vars <;> decide
  never v β t h ht := by
    rcases (sums_rule h).2 with rfl | rfl <;> simp at ht <;> (try rcases ht with rfl | rfl) <;> subst_vars <;> decide
  differ := by decide

theorem listOfSums_notIn : NotIn listOfSums (.inl "Z") "$" "#" where
  head β h := by simp [listOfSums] at h
  marker v β t h ht := by
    simp only [listOfSums, List.mem_cons, Prod.mk.injEq, List.not_mem_nil, or_false] at h
    rcases h with ⟨_, rfl⟩ | ⟨_, rfl⟩ | ⟨_, rfl⟩ | ⟨_, rfl⟩ | ⟨_, rfl⟩ <;> simp at ht <;>
      (try rcases ht with rfl | rfl) <;> subst_vars <;> decide
  never v β t h ht := by
    simp only [listOfSums, List.mem_cons, Prod.mk.injEq, List.not_mem_nil, or_false] at h
    rcases h with ⟨_, rfl⟩ | ⟨_, rfl⟩ | ⟨_, rfl⟩ | ⟨_, rfl⟩ | ⟨_, rfl⟩ <;> simp at ht <;>
      (try rcases ht with rfl | rfl) <;> subst_vars <;> decide
  differ := by decide

theorem sumsWithEnd_parser : IsParser (withEnd sums "Z" "$" "#") (tableOf (withEnd sums "Z" "$" "#")) :=
  ⟨100, .insertion, by decide +kernel⟩

/-- There is a parser for lists of sums since there are parsers for lists and for sums. -/
theorem listOfSums_parser : ∃ tbl, IsParser (withEnd listOfSums (.inl "Z") "$" "#") tbl :=
  (c107_parser listGrammar_built sums_built listOfSums_built rfl listOfSums_rules listOfSums_fit list_notIn
    listWithEnd_parser sums_notIn sumsWithEnd_parser listOfSums_notIn).1

private theorem sum_one : ∃ m, ParseTree sums m ["n"] := by
  have h : Forest sums [.term "n"] _ ["n"] := .term rfl .nil
  exact ⟨_, .var (w := []) (by decide) h .nil⟩

private theorem sum_two : ∃ m, ParseTree sums m ["n", "+", "n"] := by
  have h1 : Forest sums [.term "n"] _ ["n"] := .term rfl .nil
  have h2 : Forest sums [.term "+", .term "n"] _ ["+", "n"] := .term rfl (.term rfl .nil)
  have h3 : Forest sums [.var "S", .term "+", .term "n"] _ ["n", "+", "n"] := .var (x := ["n"]) (by decide) h1 h2
  exact ⟨_, .var (w := []) (by decide) h3 .nil⟩

private theorem list_two : ∃ m, ParseTree listGrammar m ["x", ";", "x"] := by
  have h0 : Forest listGrammar [.term "x"] _ ["x"] := .term rfl .nil
  have h1 : Forest listGrammar [.var "A"] _ ["x"] := .var (w := []) (by decide) h0 .nil
  have h2 : Forest listGrammar [.term ";", .var "A"] _ [";", "x"] := .term rfl h1
  have h3 : Forest listGrammar [.var "S", .term ";", .var "A"] _ ["x", ";", "x"] := .var (x := ["x"]) (by decide) h1 h2
  exact ⟨_, .var (w := []) (by decide) h3 .nil⟩

/-- `n + n ; n` is a list of sums since `x ; x` is a list. -/
example : ∃ n, ParseTree listOfSums n ["n", "+", "n", ";", "n"] :=
  (c107_sentences rfl listOfSums_rules listOfSums_fit _).2 ⟨["x", ";", "x"], list_two,
    .fill (x := ["n", "+", "n"]) rfl sum_two (.keep rfl (.fill (x := ["n"]) rfl sum_one .nil))⟩

/-- Whatever the input, the parser says whether it is a list of sums. -/
example (input : List String) (h : ∀ t ∈ input, teq "#" t = false) :
    ∃ (tbl : Table (String ⊕ String) String) (r : Option (Node (String ⊕ String) String)),
    parseTokens tbl ((2 * input.length + 1) * 9 + 1) input = .ok r ∧ (r.isSome = true ↔ ∃ w e' u, input = w ++ [e'] ∧
      teq "$" e' = true ∧ (∃ m, ParseTree listGrammar m u) ∧ Filled "x" (fun x => ∃ m, ParseTree sums m x) u w) := by
  obtain ⟨tbl, hp⟩ := listOfSums_parser
  refine ⟨tbl, c107_reads listGrammar_built sums_built listOfSums_built rfl listOfSums_rules listOfSums_fit list_reachable
    ?_ list_first ?_ listOfSums_notIn hp h (Nat.lt_succ_self _)⟩
  · intro v β h
    rw [(sums_rule h).1]
    exact .start
  · intro v β h
    rw [(sums_rule h).1]
    exact ⟨"n", derives_starts.2 (.inVar (β := [.term "n"]) (by decide) .term)⟩

/-- `S → x x`. -/
def twoHoles : Grammar String String := ⟨"S", [("S", [.term "x", .term "x"])]⟩

/-- `E → E n | n`. -/
def someNs : Grammar String String := ⟨"E", [("E", [.var "E", .term "n"]), ("E", [.term "n"])]⟩

/-- There is no parser if the hole may stand behind the hole, though there are parsers for both grammars. -/
example : (∃ tbl, IsParser (withEnd twoHoles "Z" "$" "#") tbl) ∧ (∃ tbl, IsParser (withEnd someNs "Z" "$" "#") tbl) ∧
    ∀ H : Grammar (String ⊕ String) String, H.start = .inl "S" →
      (∀ v β, (v, β) ∈ H.rules ↔ PluggedRule twoHoles someNs "x" v β) → ¬ OneEntryEach H := by
  refine ⟨⟨tableOf (withEnd twoHoles "Z" "$" "#"), 100, .insertion, by decide +kernel⟩,
    ⟨tableOf (withEnd someNs "Z" "$" "#"), 100, .insertion, by decide +kernel⟩, ?_⟩
  intro H hs hr h
  have r1 : (.inl "S", [.var (.inr "E"), .var (.inr "E")]) ∈ H.rules :=
    (hr _ _).2 (.outer (o := twoHoles) (β := [.term "x", .term "x"]) (by decide))
  have r2 : (.inr "E", [.var (.inr "E"), .term "n"]) ∈ H.rules :=
    (hr _ _).2 (.inner (i := someNs) (β := [.var "E", .term "n"]) (by decide))
  have r3 : (.inr "E", [.term "n"]) ∈ H.rules := (hr _ _).2 (.inner (i := someNs) (β := [.term "n"]) (by decide))
  have v1 : Viable H [] (.inl "S", ⟨[.var (.inr "E"), .var (.inr "E")], 0⟩) := by
    have := Viable.start (g := H) (hs ▸ r1) (fresh_iff.2 rfl)
    rw [hs] at this
    exact this
  have v2 : Viable H [.var (.inr "E")] (.inl "S", ⟨[.var (.inr "E"), .var (.inr "E")], 1⟩) :=
    .read v1 (advanced_iff.2 ⟨rfl, rfl⟩)
  have v3 : Viable H [.var (.inr "E")] (.inr "E", ⟨[.term "n"], 0⟩) := .expand v2 (reads_iff.2 rfl) r3 (fresh_iff.2 rfl)
  have v4 : Viable H [] (.inr "E", ⟨[.var (.inr "E"), .term "n"], 0⟩) :=
    .expand v1 (reads_iff.2 rfl) r2 (fresh_iff.2 rfl)
  have v5 : Viable H [.var (.inr "E")] (.inr "E", ⟨[.var (.inr "E"), .term "n"], 1⟩) :=
    .read v4 (advanced_iff.2 ⟨rfl, rfl⟩)
  have v6 : Viable H [.var (.inr "E"), .term "n"] (.inr "E", ⟨[.term "n"], 1⟩) := .read v3 (advanced_iff.2 ⟨rfl, rfl⟩)
  have v7 : Viable H [.var (.inr "E"), .term "n"] (.inr "E", ⟨[.var (.inr "E"), .term "n"], 2⟩) :=
    .read v5 (advanced_iff.2 ⟨rfl, rfl⟩)
  have hf : InFollow H (.inr "E") (.term "n") := inFollow_iff.2 (.here (pre := []) r2 .term)
  have := (h _ _ _ _ _ (.reduce v6 rfl hf) (.reduce v7 rfl hf) rfl).1
  simp at this

end Pango.Props
