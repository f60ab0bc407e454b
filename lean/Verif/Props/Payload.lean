import Verif.Proofs.Payload
import Verif.Props.Example
import Verif.Props.Orders
import Verif.Props.Trim

/-!
# Values inside of terminals: C91

The tokens of the input are compared with the terminals of the rules by kind.  The construction of the automaton compares
the terminals of the rules with each other including their values.
-/

namespace Pango.Props

open Pango Pango.Parse Pango.Spec Pango.Example

/-- C91: it does not matter which values the terminals in the rules have.  If there is a parser, then there is one with
other values, and it returns the same. -/
def C91 : Prop :=
  ∀ (V T : Type) [DecidableEq V] [DecidableEq T] [TerminalEq T] [LawfulTerminalEq T] (g g' : Grammar V T)
    (tbl : Table V T), Built g → Built g' → SameButValues g g' → IsParser g tbl →
    ∃ tbl', IsParser g' tbl' ∧ ∀ fuel input, parseTokens tbl' fuel input = parseTokens tbl fuel input

/-- `S → S + A n | A m` and `A → *`, where `n` and `m` are values. -/
def twoValues (n m : Nat) : Grammar String Terminals :=
  ⟨"S", [("S", [.var "S", .term .plus, .var "A", .term (.val n)]), ("S", [.var "A", .term (.val m)]),
    ("A", [.term .mul])]⟩

theorem twoValues_built (n m : Nat) : Built (twoValues n m) :=
  ⟨[.setStart "S", .addRules "S" [[.var "S", .term .plus, .var "A", .term (.val n)], [.var "A", .term (.val m)]],
    .addRules "A" [[.term .mul]]], by with_unfolding_all rfl⟩

theorem twoValues_same (n m n' m' : Nat) : SameButValues (twoValues n m) (twoValues n' m') where
  start := rfl
  there v β h := by
    simp only [twoValues, List.mem_cons, Prod.mk.injEq, List.not_mem_nil, or_false] at h ⊢
    rcases h with ⟨rfl, rfl⟩ | ⟨rfl, rfl⟩ | ⟨rfl, rfl⟩
    · exact ⟨_, .inl ⟨rfl, rfl⟩, .var (.term rfl (.var (.term rfl .nil)))⟩
    · exact ⟨_, .inr (.inl ⟨rfl, rfl⟩), .var (.term rfl .nil)⟩
    · exact ⟨_, .inr (.inr ⟨rfl, rfl⟩), .term rfl .nil⟩
  back v β h := by
    simp only [twoValues, List.mem_cons, Prod.mk.injEq, List.not_mem_nil, or_false] at h ⊢
    rcases h with ⟨rfl, rfl⟩ | ⟨rfl, rfl⟩ | ⟨rfl, rfl⟩
    · exact ⟨_, .inl ⟨rfl, rfl⟩, .var (.term rfl (.var (.term rfl .nil)))⟩
    · exact ⟨_, .inr (.inl ⟨rfl, rfl⟩), .var (.term rfl .nil)⟩
    · exact ⟨_, .inr (.inr ⟨rfl, rfl⟩), .term rfl .nil⟩

theorem twoValues_parser : ∃ tbl, IsParser (twoValues 0 0) tbl := by
  have h1 : slrNew (twoValues 0 0) .insertion 100 ≠ .panic := by decide +kernel
  have h2 : slrNew (twoValues 0 0) .insertion 100 ≠ .diverge := by decide +kernel
  cases h : slrNew (twoValues 0 0) .insertion 100 with
  | panic => exact absurd h h1
  | diverge => exact absurd h h2
  | ok tbl => exact ⟨tbl, _, _, h⟩

theorem twoValues_one : OneValue (twoValues 0 0) := by
  have key : ∀ v β t, (v, β) ∈ (twoValues 0 0).rules → .term t ∈ β → t = .plus ∨ t = .mul ∨ t = .val 0 := by
    intro v β t h1 h2
    simp only [twoValues, List.mem_cons, Prod.mk.injEq, List.not_mem_nil, or_false] at h1
    rcases h1 with ⟨rfl, rfl⟩ | ⟨rfl, rfl⟩ | ⟨rfl, rfl⟩
    · simp at h2
      rcases h2 with h | h
      · exact .inl h
      · exact .inr (.inr h)
    · simp at h2
      exact .inr (.inr h2)
    · simp at h2
      exact .inr (.inl h2)
  intro v β t v' β' t' h1 h2 h3 h4 ht
  rcases key _ _ _ h1 h2 with rfl | rfl | rfl <;> rcases key _ _ _ h3 h4 with rfl | rfl | rfl <;>
    first | rfl | cases ht

/-- Behind `A` two values can stand, so that its rule is entered twice for the same kind of token. -/
theorem twoValues_clash (n m : Nat) : ValuesApart (twoValues n m) → n = m := by
  intro h
  have hs : Viable (twoValues n m) [] ("S", ⟨[.var "A", .term (.val m)], 0⟩) :=
    .start (β := [.var "A", .term (.val m)]) (by simp [twoValues]) ⟨rfl, _, rfl, by simp⟩
  have ha : Viable (twoValues n m) [] ("A", ⟨[.term .mul], 0⟩) :=
    .expand hs ⟨[], _, rfl, rfl⟩ (β := [.term .mul]) (by simp [twoValues]) ⟨rfl, _, rfl, by simp⟩
  have hm : Viable (twoValues n m) ([] ++ [.term .mul]) ("A", ⟨[.term .mul], 1⟩) :=
    .read ha ⟨rfl, [], 0, [], rfl, by simp, rfl, rfl⟩
  have h1 : InFollow (twoValues n m) "A" (.term (.val n)) := inFollow_iff.2
    (.here (h := "S") (pre := [.var "S", .term .plus]) (rest := [.term (.val n)]) (by simp [twoValues]) .term)
  have h2 : InFollow (twoValues n m) "A" (.term (.val m)) := inFollow_iff.2
    (.here (h := "S") (pre := []) (rest := [.term (.val m)]) (by simp [twoValues]) .term)
  have := h _ _ _ _ _ (.reduce hm rfl h1) (.reduce hm rfl h2) rfl
  exact Terminals.val.inj this

/-! ## What holds -/

variable {V T : Type} [DecidableEq V] [DecidableEq T] [TerminalEq T] [LawfulTerminalEq T] {g g' : Grammar V T}
  {tbl tbl' : Table V T}

theorem agrees_merges {k : T → T} {a : Prop} (m : Merges k g g') (hg : Built g) (hf : Fits g a) :
    Agrees g tbl a ↔ Agrees g' tbl a := by
  unfold Agrees
  simp only [m.machineRun_iff hg.wellFormed.start hf, m.steps_iff hg.wellFormed.start hf]

/-- C91: whether there is a parser.  If one of the grammars has one value for each kind of terminal, then there is a
parser for the other one if and only if there is one for this, and if nowhere two values of the same kind have to be
told apart. -/
theorem c91_exact_partial (hg : Built g) (hg' : Built g') (hs : SameButValues g g') (ho : OneValue g') :
    (∃ tbl, IsParser g tbl) ↔ (∃ tbl, IsParser g' tbl) ∧ ValuesApart g := by
  obtain ⟨k, m⟩ := hs.merges_one ho
  have key : ∀ {g : Grammar V T}, Built g → ((∃ tbl, IsParser g tbl) ↔ Fits g (SurelyFollowed g g.start)) := by
    intro g hg
    obtain ⟨bound, hb⟩ := c35_orders_partial hg
    rw [← (hb bound (Nat.le_refl _)).2]
    constructor
    · rintro ⟨tbl, fuel, ord, h⟩
      rw [(hb bound (Nat.le_refl _)).2, ← (hb (max bound fuel) (by omega)).2]
      exact ⟨ord, tbl, (slrNew_mono (by omega)).ok h⟩
    · rintro ⟨ord, tbl, h⟩
      exact ⟨tbl, _, _, h⟩
  rw [key hg, key hg', m.fits_iff, m.start, m.surelyFollowed]

/-- C91 does not hold: for the values 0 and 1 there is no parser. -/
theorem c91_false : ¬ C91 := by
  intro h
  obtain ⟨tbl, hp⟩ := twoValues_parser
  obtain ⟨tbl', hp', _⟩ := h _ _ (twoValues 0 0) (twoValues 0 1) tbl (twoValues_built 0 0) (twoValues_built 0 1)
    (twoValues_same 0 0 0 1) hp
  have := ((c91_exact_partial (twoValues_built 0 1) (twoValues_built 0 0) (twoValues_same 0 1 0 0) twoValues_one).1
    ⟨tbl', hp'⟩).2
  exact absurd (twoValues_clash 0 1 this) (by decide)

/-- C91: what parsers do.  Parsers of grammars that differ only in values do the same on every input, except that one may
return an error where the other panics, if the start variable is surely followed, or nothing can stand behind it. -/
theorem c91_same_partial (hg : Built g) (hg' : Built g') (hs : SameButValues g g') (hp : IsParser g tbl)
    (hp' : IsParser g' tbl') (hd : SurelyFollowed g g.start ∨ ¬ Followable g g.start) (fuel : Nat) (input : List T) :
    SameButPanic (parseTokens tbl fuel input) (parseTokens tbl' fuel input) := by
  obtain ⟨k, hk, hk'⟩ := exists_choice (T := T)
  obtain ⟨g0, m, m'⟩ := hs.merges hk hk'
  obtain ⟨f1, ord, ht⟩ := hp
  obtain ⟨f2, ord', ht'⟩ := hp'
  obtain ⟨a, h1, h2, h3, _⟩ := slrNew_verdict hg ord
  obtain ⟨a', h1', h2', h3', _⟩ := slrNew_verdict hg' ord'
  obtain ⟨h4, h5⟩ := h3 _ _ ht
  obtain ⟨h4', h5'⟩ := h3' _ _ ht'
  rw [← hs.start, m'.surelyFollowed, ← m.surelyFollowed] at h1'
  rw [← hs.start, m'.followable, ← m.followable] at h2'
  have ha : a = a' := by
    apply propext
    rcases hd with h | h
    · exact ⟨fun _ => h1' h, fun _ => h1 h⟩
    · exact ⟨fun k => absurd (h2 k) h, fun k => absurd (h2' k) h⟩
  subst ha
  exact ((agrees_merges m hg h4).1 h5).same ((agrees_merges m' hg' h4').1 h5') fuel input

/-- C91, for a grammar with one value for each kind of terminal: there is a parser for it if there is one for some other
values, and it does the same, except that one may return an error where the other panics. -/
theorem c91_one_partial (hg : Built g) (hg' : Built g') (hs : SameButValues g g') (ho : OneValue g')
    (hp : IsParser g tbl) : ∃ tbl', IsParser g' tbl' ∧
      ∀ fuel input, SameButPanic (parseTokens tbl fuel input) (parseTokens tbl' fuel input) := by
  obtain ⟨k, m⟩ := hs.merges_one ho
  obtain ⟨f1, ord, ht⟩ := hp
  obtain ⟨a, h1, h2, h3, _⟩ := slrNew_verdict hg ord
  obtain ⟨h4, h5⟩ := h3 _ _ ht
  rw [m.surelyFollowed, ← m.start] at h1
  rw [m.followable, ← m.start] at h2
  obtain ⟨bound, ord', h6⟩ := c42_machines hg' a h2 (fun hn hs => hn (h1 hs))
  rcases h6 bound (Nat.le_refl _) with ⟨_, tbl', h7, h8⟩ | ⟨h7, _⟩
  · exact ⟨tbl', ⟨_, _, h7⟩, fun fuel input => ((agrees_merges m hg h4).1 h5).same h8 fuel input⟩
  · exact absurd (m.fits h4) h7

/-- And whatever the iteration order, if the start variable is surely followed. -/
theorem c91_orders_partial (hg : Built g) (hg' : Built g') (hs : SameButValues g g') (ho : OneValue g')
    (hp : IsParser g tbl) (hd : SurelyFollowed g g.start) :
    ∃ bound, ∀ fuel ≥ bound, ∀ ord : HashOrder, ∃ tbl', slrNew g' ord fuel = .ok tbl' := by
  obtain ⟨k, m⟩ := hs.merges_one ho
  obtain ⟨f1, ord, ht⟩ := hp
  obtain ⟨a, h1, _, h3, _⟩ := slrNew_verdict hg ord
  obtain ⟨bound, hb⟩ := c35_orders_partial hg'
  exact ⟨bound, fun fuel hf => (hb fuel hf).1.2 (fits_mono (m.fits (h3 _ _ ht).1) fun _ => h1 hd)⟩

omit [DecidableEq V] [DecidableEq T] [LawfulTerminalEq T] in
theorem Trim.merges {k : T → T} (m : Merges k g g') : Trim g ↔ Trim g' := by
  have hrules : ∀ v, (∃ β, (v, β) ∈ g.rules) ↔ ∃ β, (v, β) ∈ g'.rules := fun v =>
    ⟨fun ⟨_, h⟩ => ⟨_, m.rule h⟩, fun ⟨β, h⟩ => (by obtain ⟨β, h, _⟩ := (m.rules v β).1 h; exact ⟨β, h⟩)⟩
  constructor
  · intro h
    refine ⟨m.epsFree.1 h.epsFree, fun v β hr => ?_, fun v β hr => ?_, ?_⟩
    · obtain ⟨β, hr⟩ := (hrules v).2 ⟨β, hr⟩
      exact m.reachable.1 (h.reachable _ _ hr)
    · obtain ⟨β, hr⟩ := (hrules v).2 ⟨β, hr⟩
      exact m.inFirst_iff.1 (h.first _ _ hr)
    · obtain ⟨t, h⟩ := h.start
      rw [m.start]
      exact ⟨_, m.inFollow h⟩
  · intro h
    refine ⟨m.epsFree.2 h.epsFree, fun v β hr => ?_, fun v β hr => ?_, ?_⟩
    · exact m.reachable.2 (h.reachable _ _ (m.rule hr))
    · exact m.inFirst_iff.2 (h.first _ _ (m.rule hr))
    · obtain ⟨t, h⟩ := h.start
      rw [m.start] at h
      obtain ⟨t, _, h⟩ := m.inFollow_back h
      exact ⟨t, h⟩

/-- C91 for trim grammars: parsers return the same, whatever the values. -/
theorem c91_trim_partial (hg : Built g) (hg' : Built g') (hs : SameButValues g g') (hp : IsParser g tbl)
    (hp' : IsParser g' tbl') (ht : Trim g) (fuel : Nat) (input : List T) :
    parseTokens tbl' fuel input = parseTokens tbl fuel input := by
  obtain ⟨k, hk, hk'⟩ := exists_choice (T := T)
  obtain ⟨g0, m, m'⟩ := hs.merges hk hk'
  have h1 := c41_trim_partial hg hp ht fuel input
  have h2 := c41_trim_partial hg' hp' ((Trim.merges m').2 ((Trim.merges m).1 ht)) fuel input
  rcases c91_same_partial hg hg' hs hp hp' (.inl (.inl ht.start)) fuel input with h | ⟨h | h, h' | h'⟩
  · exact h.symm
  · rw [h, h']
  · exact absurd h' h2
  · exact absurd h h1
  · exact absurd h h1

/-- `Expr → Expr * 1 | Expr + 2 | 3`. -/
def exprValues : Grammar Variables Terminals :=
  ⟨.expr, [(.expr, [.var .expr, .term .mul, .term (.val 1)]), (.expr, [.var .expr, .term .plus, .term (.val 2)]),
    (.expr, [.term (.val 3)])]⟩

theorem exprValues_built : Built exprValues :=
  ⟨[.setStart .expr, .addRules .expr
    [[.var .expr, .term .mul, .term (.val 1)], [.var .expr, .term .plus, .term (.val 2)], [.term (.val 3)]]], by decide⟩

theorem exprValues_same : SameButValues exprGrammar exprValues where
  start := rfl
  there v β h := by
    simp only [exprGrammar, exprValues, List.mem_cons, Prod.mk.injEq, List.not_mem_nil, or_false] at h ⊢
    rcases h with ⟨-, rfl⟩ | ⟨-, rfl⟩ | ⟨-, rfl⟩
    · exact ⟨_, .inl ⟨trivial, rfl⟩, .var (.term rfl (.term rfl .nil))⟩
    · exact ⟨_, .inr (.inl ⟨trivial, rfl⟩), .var (.term rfl (.term rfl .nil))⟩
    · exact ⟨_, .inr (.inr ⟨trivial, rfl⟩), .term rfl .nil⟩
  back v β h := by
    simp only [exprGrammar, exprValues, List.mem_cons, Prod.mk.injEq, List.not_mem_nil, or_false] at h ⊢
    rcases h with ⟨-, rfl⟩ | ⟨-, rfl⟩ | ⟨-, rfl⟩
    · exact ⟨_, .inl ⟨trivial, rfl⟩, .var (.term rfl (.term rfl .nil))⟩
    · exact ⟨_, .inr (.inl ⟨trivial, rfl⟩), .var (.term rfl (.term rfl .nil))⟩
    · exact ⟨_, .inr (.inr ⟨trivial, rfl⟩), .term rfl .nil⟩

theorem exprGrammar_same : SameButValues exprValues exprGrammar where
  start := rfl
  there v β h := by
    simp only [exprGrammar, exprValues, List.mem_cons, Prod.mk.injEq, List.not_mem_nil, or_false] at h ⊢
    rcases h with ⟨-, rfl⟩ | ⟨-, rfl⟩ | ⟨-, rfl⟩
    · exact ⟨_, .inl ⟨trivial, rfl⟩, .var (.term rfl (.term rfl .nil))⟩
    · exact ⟨_, .inr (.inl ⟨trivial, rfl⟩), .var (.term rfl (.term rfl .nil))⟩
    · exact ⟨_, .inr (.inr ⟨trivial, rfl⟩), .term rfl .nil⟩
  back v β h := by
    simp only [exprGrammar, exprValues, List.mem_cons, Prod.mk.injEq, List.not_mem_nil, or_false] at h ⊢
    rcases h with ⟨-, rfl⟩ | ⟨-, rfl⟩ | ⟨-, rfl⟩
    · exact ⟨_, .inl ⟨trivial, rfl⟩, .var (.term rfl (.term rfl .nil))⟩
    · exact ⟨_, .inr (.inl ⟨trivial, rfl⟩), .var (.term rfl (.term rfl .nil))⟩
    · exact ⟨_, .inr (.inr ⟨trivial, rfl⟩), .term rfl .nil⟩

theorem exprGrammar_one : OneValue exprGrammar := by
  have key : ∀ v β t, (v, β) ∈ exprGrammar.rules → .term t ∈ β → t = .mul ∨ t = .plus ∨ t = .val 0 := by
    intro v β t h1 h2
    simp only [exprGrammar, List.mem_cons, Prod.mk.injEq, List.not_mem_nil, or_false] at h1
    rcases h1 with ⟨-, rfl⟩ | ⟨-, rfl⟩ | ⟨-, rfl⟩
    · simp at h2
      rcases h2 with h | h
      · exact .inl h
      · exact .inr (.inr h)
    · simp at h2
      exact .inr h2
    · simp at h2
      exact .inr (.inr h2)
  intro v β t v' β' t' h1 h2 h3 h4 ht
  rcases key _ _ _ h1 h2 with rfl | rfl | rfl <;> rcases key _ _ _ h3 h4 with rfl | rfl | rfl <;>
    first | rfl | cases ht

theorem exprGrammar_trim : Trim exprGrammar where
  epsFree := exprGrammar_epsFree
  reachable v _ _ := by cases v; exact .start
  first := exprGrammar_first
  start := exprGrammar_follow _ [.term (.val 0)] (by simp [exprGrammar])

theorem exprValues_parser : ∃ tbl, IsParser exprValues tbl := by
  have h1 : slrNew exprValues .insertion 100 ≠ .panic := by decide +kernel
  have h2 : slrNew exprValues .insertion 100 ≠ .diverge := by decide +kernel
  cases h : slrNew exprValues .insertion 100 with
  | panic => exact absurd h h1
  | diverge => exact absurd h h2
  | ok tbl => exact ⟨tbl, _, _, h⟩

/-- The parser of the example returns the same if its grammar has the values 1, 2 and 3 in place of 0. -/
example (tbl tbl' : Table Variables Terminals) (hp : IsParser exprGrammar tbl) (hp' : IsParser exprValues tbl')
    (fuel : Nat) (input : List Terminals) : parseTokens tbl' fuel input = parseTokens tbl fuel input :=
  c91_trim_partial exprGrammar_built exprValues_built exprValues_same hp hp' exprGrammar_trim fuel input

/-- Its values are apart. -/
example : ValuesApart exprValues :=
  ((c91_exact_partial exprValues_built exprGrammar_built exprGrammar_same exprGrammar_one).1 exprValues_parser).2

/-- With one value for each kind there is a parser for the grammar of the counterexample, whatever the iteration order. -/
example : ∃ bound, ∀ fuel ≥ bound, ∀ ord : HashOrder, ∃ tbl, slrNew (twoValues 0 0) ord fuel = .ok tbl := by
  obtain ⟨tbl, hp⟩ := twoValues_parser
  exact c91_orders_partial (twoValues_built 0 0) (twoValues_built 0 0) (twoValues_same 0 0 0 0) twoValues_one hp
    (.inr (.inl ⟨"S", [], .term .plus, [.var "A", .term (.val 0)], by simp [twoValues]⟩))

end Pango.Props
