import Verif.Spec.Pointers
import Verif.Proofs.Pointers
import Verif.Proofs.Fuel
import Verif.Props.FirstFollow
import Verif.Props.Table

/-!
# C75: the pointers into the grammar
-/

namespace Pango.Props

open Pango Pango.Parse Pango.Spec

variable {V T : Type} [DecidableEq V] [DecidableEq T] [TerminalEq T]
variable {m mem mem' : Mem V T} {gp : PGrammar V} {g : Grammar V T} {locate : V → Sym V T → SymPtr}

omit [DecidableEq V] [DecidableEq T] [TerminalEq T] in
theorem stored_of_lies (h : Lies m gp g) : Stored m gp g := by
  refine ⟨h.start, allAt_iff.2 ?_⟩
  have h1 := congrArg (List.map fun r : V × Option (Body V T) => r.2.map fun b => (r.1, b)) h.rules
  simpa [Function.comp_def] using h1

omit [TerminalEq T] in
theorem locates_of_places (hg : Built g) (h : PlacesFollow m g locate) : Locates m g locate := by
  intro ord fuel follow hf v f hv s hs
  obtain ⟨bound, hb⟩ := c29_follow hg
  obtain ⟨r, hr, hmem⟩ := hb (max bound fuel) (Nat.le_max_left _ _) ord
  have : r = follow := by
    rcases followSet_mono (g := g) (Nat.le_max_right bound fuel) (ord := ord) with h1 | h1
    · rw [hf] at h1; cases h1
    · rw [hf, hr] at h1; cases h1; rfl
  subst this
  have h2 := (hmem v s).1 (by simp [hv, hs])
  cases s with
  | term t =>
    obtain ⟨body, h3, h4⟩ := h v t h2
    simp [symAt, h3, h4]
  | var w => exact absurd h2 (by simp [InFollow])
  | eps => exact absurd h2 (by simp [InFollow])

/-- C75.  While the memory holds the grammar, building the automaton and the table reads no pointer to anything else:
it comes to what the model without pointers comes to. -/
theorem c75_build (hg : Built g) (hl : Lies m gp g) (hf : PlacesFollow m g locate) (hm : StillHolds m mem)
    (ord tie : HashOrder) (fuel : Nat) :
    slrTableP mem gp locate ord tie fuel ≠ .fault ∧
    (slrTableP mem gp locate ord tie fuel = .panic ↔ slrTable g ord fuel = .panic) ∧
    (slrTableP mem gp locate ord tie fuel = .diverge ↔ slrTable g ord fuel = .diverge) ∧
    (slrTableP mem gp locate ord tie fuel = .val none ↔ slrTable g ord fuel = .ok none) ∧
    ((∃ tbl, slrTableP mem gp locate ord tie fuel = .val (some tbl)) ↔ ∃ tbl, slrTable g ord fuel = .ok (some tbl)) := by
  have h := slrTable_sim hm (stored_of_lies hl) (locates_of_places hg hf) ord tie fuel
  revert h
  cases slrTableP mem gp locate ord tie fuel <;> cases slrTable g ord fuel <;> simp only [Sim] <;>
    first
    | (rintro (⟨rfl, rfl⟩ | ⟨x, y, rfl, rfl, _⟩) <;> simp)
    | simp

/-- C75.  Also the table can be used as long as the memory, whatever else is in it by then, holds the grammar: every
parse reads only the grammar and the token at hand, and comes to what the model without pointers comes to. -/
theorem c75_parse (hg : Built g) (hl : Lies m gp g) (hf : PlacesFollow m g locate) (hm : StillHolds m mem)
    (ord tie : HashOrder) (fuel : Nat) {tbl : PTable V} (h : slrTableP mem gp locate ord tie fuel = .val (some tbl)) :
    ∃ t, slrTable g ord fuel = .ok (some t) ∧
      ∀ mem', StillHolds m mem' → ∀ slot, m slot = none → ∀ fuel' input fin,
        parseTokensP mem' slot tbl fuel' input fin = Access.of (parseTokens t fuel' input fin) := by
  have hs := slrTable_sim hm (stored_of_lies hl) (locates_of_places hg hf) ord tie fuel
  rw [h] at hs
  cases ho : slrTable g ord fuel with
  | panic => rw [ho] at hs; exact hs.elim
  | diverge => rw [ho] at hs; exact hs.elim
  | ok o =>
    rw [ho] at hs
    rcases hs with ⟨h1, _⟩ | ⟨x, y, h1, rfl, ht⟩
    · cases h1
    · cases h1
      exact ⟨y, rfl, fun mem' hm' slot hslot fuel' input fin => parseTokens_eq hm' hslot ht fuel' input fin⟩

/-- C75.  In particular no parse reads an address that holds nothing. -/
theorem c75_no_fault (hg : Built g) (hl : Lies m gp g) (hf : PlacesFollow m g locate) (hm : StillHolds m mem)
    (ord tie : HashOrder) (fuel : Nat) {tbl : PTable V} (h : slrTableP mem gp locate ord tie fuel = .val (some tbl))
    (hm' : StillHolds m mem') {slot : Addr} (hs : m slot = none) (fuel' : Nat) (input : List T) (fin : InputEnd) :
    parseTokensP mem' slot tbl fuel' input fin ≠ .fault := by
  obtain ⟨t, _, ht⟩ := c75_parse hg hl hf hm ord tie fuel h
  rw [ht mem' hm' slot hs]
  cases parseTokens t fuel' input fin <;> simp [Access.of]

/-- The memory with nothing but the bodies of a grammar, one behind the other. -/
def layOut (g : Grammar V T) : Mem V T := fun a => (g.rules[a]?).map Prod.snd

/-- The addresses of the bodies. -/
def addresses (g : Grammar V T) : PGrammar V := ⟨g.start, g.rules.zipIdx.map fun r => (r.1.1, r.2)⟩

/-- The first place at which a symbol occurs. -/
def firstPlace (g : Grammar V T) (s : Sym V T) : SymPtr :=
  let a := g.rules.findIdx (fun r => decide (s ∈ r.2))
  (a, (((g.rules[a]?).map Prod.snd).getD []).findIdx (fun x => decide (x = s)))

omit [DecidableEq V] [DecidableEq T] [TerminalEq T] in
theorem layOut_lies (g : Grammar V T) : Lies (layOut g) (addresses g) g := by
  refine ⟨rfl, ?_⟩
  refine List.ext_getElem (by simp [addresses]) ?_
  intro n h1 h2
  simp at h2
  simp [addresses, layOut, h2]

omit [TerminalEq T] in
/-- The hypotheses can be met for every grammar. -/
theorem layOut_places (g : Grammar V T) : PlacesFollow (layOut g) g (fun _ s => firstPlace g s) := by
  intro v t h
  have hmem : ∃ r ∈ g.rules, Sym.term t ∈ r.2 := by
    have h1 : Fol g t v := derives_follow.1 h
    have h2 := h1.mem
    simp only [firstUniverse, List.mem_cons, reduceCtorEq, List.mem_flatMap, false_or] at h2
    exact h2
  obtain ⟨r, hr, ht⟩ := hmem
  have ha : g.rules.findIdx (fun r => decide (Sym.term t ∈ r.2)) < g.rules.length :=
    List.findIdx_lt_length_of_exists ⟨r, hr, by simpa using ht⟩
  have hb := List.findIdx_getElem (w := ha)
  simp only [decide_eq_true_eq] at hb
  refine ⟨g.rules[g.rules.findIdx (fun r => decide (Sym.term t ∈ r.2))].2,
    by simp only [layOut, firstPlace, List.getElem?_eq_getElem ha, Option.map_some], ?_⟩
  simp only [firstPlace, List.getElem?_eq_getElem ha, Option.map_some, Option.getD_some]
  have hc := List.findIdx_lt_length_of_exists (p := fun x => decide (x = Sym.term t)) ⟨_, hb, by simp⟩
  rw [List.getElem?_eq_getElem hc]
  have hd := List.findIdx_getElem (w := hc)
  simp only [decide_eq_true_eq] at hd
  rw [hd]

/-- The parser for `goodGrammar`, with the iteration order of insertion where values are hashed and the reversed one
where the choice is between equal values behind different pointers. -/
def goodTableP : PTable String :=
  match slrTableP (layOut goodGrammar) (addresses goodGrammar) (fun _ s => firstPlace goodGrammar s) .insertion .reversed
      100 with
  | .val (some tbl) => tbl
  | _ => ⟨"P", [], []⟩

theorem goodTableP_eq : slrTableP (layOut goodGrammar) (addresses goodGrammar) (fun _ s => firstPlace goodGrammar s)
    .insertion .reversed 100 = .val (some goodTableP) := by decide +kernel

/-- It meets the hypotheses of the theorems, also in a memory with something else in it. -/
example : Built goodGrammar ∧ Lies (layOut goodGrammar) (addresses goodGrammar) goodGrammar ∧
    PlacesFollow (layOut goodGrammar) goodGrammar (fun _ s => firstPlace goodGrammar s) ∧
    StillHolds (layOut goodGrammar) (fun a => if a = 7 then some [.eps] else layOut goodGrammar a) ∧
    layOut goodGrammar 4 = none := by
  refine ⟨goodGrammar_built, layOut_lies _, layOut_places _, ?_, rfl⟩
  intro a body h
  by_cases ha : a = 7
  · subst ha; cases h
  · simpa [ha] using h

/-- The parser parses. -/
example : (match parseTokensP (layOut goodGrammar) 4 goodTableP 50 ["(", "x", ")", ";"] with
      | .val (some (.mk s cs)) => decide (s = .var "P" ∧ cs.length = 2)
      | _ => false) = true ∧
    (match parseTokensP (layOut goodGrammar) 4 goodTableP 50 ["x"] with
      | .val none => true
      | _ => false) = true := by decide +kernel

/-- The memory has to hold the grammar: in a memory from which it is gone the same parser reads what is not there.
That is why `ParseTable` keeps the automaton, and that the grammar. -/
theorem c75_gone : parseTokensP (fun _ => none) 4 goodTableP 50 ["(", "x", ")", ";"] = .fault := by
  have h : (match parseTokensP (fun _ => none) 4 goodTableP 50 ["(", "x", ")", ";"] with
      | .fault => true
      | _ => false) = true := by decide +kernel
  split at h
  · assumption
  · cases h

/-- Neither can the table be built in a memory from which a body is gone that the automaton has an item of. -/
theorem c75_gone_build : slrTableP (fun a => if a = 0 then none else layOut goodGrammar a) (addresses goodGrammar)
    (fun _ s => firstPlace goodGrammar s) .insertion .reversed 100 = .fault := by
  decide +kernel

/-- A read gives what the memory holds at the place that is read, and is a fault exactly if there is no such thing. -/
theorem c75_read (mem : Mem V T) (a : Addr) (n : Nat) :
    (∀ body, bodyAt mem a = .val body ↔ mem a = some body) ∧ (bodyAt mem a = .fault ↔ mem a = none) ∧
    (∀ s, symbolAt mem (a, n) = .val s ↔ ∃ body, mem a = some body ∧ body[n]? = some s) ∧
    (symbolAt mem (a, n) = .fault ↔ ∀ body, mem a = some body → body.length ≤ n) ∧
    (∀ t, terminalAt mem (a, n) = .val t ↔ ∃ body, mem a = some body ∧ body[n]? = some (.term t)) ∧
    (terminalAt mem (a, n) = .fault ↔ ∀ body, mem a = some body → ∀ t, body[n]? ≠ some (.term t)) := by
  cases hm : mem a with
  | none => simp [bodyAt, symbolAt, terminalAt, hm, bind, Access.bind]
  | some body =>
    cases hb : body[n]? with
    | none =>
      have := List.getElem?_eq_none_iff.1 hb
      simp [bodyAt, symbolAt, terminalAt, hm, hb, bind, Access.bind, this]
    | some s =>
      obtain ⟨hn, hs⟩ := List.getElem?_eq_some_iff.1 hb
      cases s <;> simp [bodyAt, symbolAt, terminalAt, hm, hs, bind, Access.bind, pure, hn]

end Pango.Props
