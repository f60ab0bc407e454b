import Verif.Proofs.Rename
import Verif.Props.Trim

/-!
# C64: names do not matter
-/

namespace Pango.Props

open Pango Pango.Parse Pango.Spec

variable {V T V' T' : Type} [DecidableEq V] [DecidableEq T] [DecidableEq V'] [DecidableEq T'] {f : V → V'} {k : T → T'}
  {g : Grammar V T}

/-! ## The builder -/

/-- The same call with other names. -/
def BuilderCall.rename (f : V → V') (k : T → T') : BuilderCall V T → BuilderCall V' T'
  | .setStart v => .setStart (f v)
  | .addRule v body => .addRule (f v) (body.map (Sym.rename f k))
  | .addRules v bodies => .addRules (f v) (bodies.map (List.map (Sym.rename f k)))

section
variable (hf : ∀ v w, f v = f w → v = w) (hk : ∀ t u, k t = k u → t = u)
include hf hk

omit [DecidableEq V] [DecidableEq T] [DecidableEq V'] [DecidableEq T'] in
theorem Sym.rename_inj (x y : Sym V T) (h : x.rename f k = y.rename f k) : x = y := by
  cases x <;> cases y <;> simp [Sym.rename] at h ⊢
  · exact hk _ _ h
  · exact hf _ _ h

omit [DecidableEq V] [DecidableEq T] [DecidableEq V'] [DecidableEq T'] in
theorem rename_list_inj (x y : List (Sym V T)) (h : x.map (Sym.rename f k) = y.map (Sym.rename f k)) : x = y := by
  induction x generalizing y with
  | nil => cases y with
    | nil => rfl
    | cons _ _ => cases h
  | cons a x ih => cases y with
    | nil => cases h
    | cons b y =>
      simp only [List.map_cons, List.cons.injEq] at h
      rw [Sym.rename_inj hf hk a b h.1, ih y h.2]

omit [DecidableEq V] [DecidableEq T] [DecidableEq V'] [DecidableEq T'] in
theorem renameRule_inj (r s : V × Body V T) (h : renameRule f k r = renameRule f k s) : r = s := by
  obtain ⟨v, β⟩ := r
  obtain ⟨w, γ⟩ := s
  simp only [renameRule, Prod.mk.injEq] at h
  rw [hf _ _ h.1, rename_list_inj hf hk _ _ h.2]

theorem insertNew_rename (r : V × Body V T) (l : List (V × Body V T)) :
    insertNew (renameRule f k r) (l.map (renameRule f k)) = (insertNew r l).map (renameRule f k) := by
  have : renameRule f k r ∈ l.map (renameRule f k) ↔ r ∈ l := by
    constructor
    · intro h
      obtain ⟨s, hs, h⟩ := List.mem_map.1 h
      rwa [← renameRule_inj hf hk _ _ h]
    · exact List.mem_map_of_mem
  unfold insertNew
  by_cases h : r ∈ l
  · rw [if_pos h, if_pos (this.2 h)]
  · rw [if_neg h, if_neg (fun h' => h (this.1 h')), List.map_append]
    rfl

/-- The same builder with other names. -/
def renameBuilder (f : V → V') (k : T → T') (b : GrammarBuilder V T) : GrammarBuilder V' T' :=
  ⟨b.start.map f, b.rules.map (renameRule f k)⟩

theorem addRule_rename (b : GrammarBuilder V T) (v : V) (body : Body V T) :
    ((renameBuilder f k b).addRule (f v) (body.map (Sym.rename f k))).2 = renameBuilder f k (b.addRule v body).2 := by
  have h : normalizeBody (body.map (Sym.rename f k)) = (normalizeBody body).map (Sym.rename f k) := by
    cases body <;> rfl
  simp only [GrammarBuilder.addRule, renameBuilder, h, GrammarBuilder.mk.injEq, true_and]
  exact insertNew_rename hf hk (v, normalizeBody body) b.rules

theorem run_rename (b : GrammarBuilder V T) (call : BuilderCall V T) :
    (call.rename f k).run (renameBuilder f k b) = renameBuilder f k (call.run b) := by
  cases call with
  | setStart v => rfl
  | addRule v body => exact addRule_rename hf hk b v body
  | addRules v bodies =>
    simp only [BuilderCall.rename, BuilderCall.run, GrammarBuilder.addRules]
    induction bodies generalizing b with
    | nil => rfl
    | cons body bodies ih =>
      simp only [List.map_cons, List.foldl_cons]
      rw [addRule_rename hf hk, ih]

theorem runCalls_rename (calls : List (BuilderCall V T)) :
    runCalls (calls.map (BuilderCall.rename f k)) = renameBuilder f k (runCalls calls) := by
  unfold runCalls
  rw [show (GrammarBuilder.new : GrammarBuilder V' T') = renameBuilder f k .new from rfl]
  generalize (GrammarBuilder.new : GrammarBuilder V T) = b
  induction calls generalizing b with
  | nil => rfl
  | cons c calls ih =>
    simp only [List.map_cons, List.foldl_cons]
    rw [run_rename hf hk, ih]

end

/-- The same result with other names. -/
def renameResult {α β : Type} (r : α → β) : Outcome α → Outcome β
  | .ok a => .ok (r a)
  | .panic => .panic
  | .diverge => .diverge

/-- C64 for the builder: with other names the same calls give the same grammar with other names, or the same panic. -/
theorem c64_builder (hf : ∀ v w, f v = f w → v = w) (hk : ∀ t u, k t = k u → t = u) (calls : List (BuilderCall V T)) :
    (runCalls (calls.map (BuilderCall.rename f k))).build =
      renameResult (Grammar.rename f k) (runCalls calls).build := by
  rw [runCalls_rename hf hk]
  obtain ⟨start, rules⟩ := runCalls calls
  cases start with
  | none => rfl
  | some s =>
    have hbv : ∀ β : Body V T, bodyVariables (β.map (Sym.rename f k)) = (bodyVariables β).map f := by
      intro β
      induction β with
      | nil => rfl
      | cons x β ih =>
        unfold bodyVariables at ih ⊢
        cases x <;> simp [Sym.rename, ih]
    have h1 : (rules.map (renameRule f k)).map Prod.fst = (rules.map Prod.fst).map f := by
      simp [renameRule, Function.comp_def]
    have h2 : (rules.map (renameRule f k)).flatMap (fun r => bodyVariables r.2) =
        (rules.flatMap (fun r => bodyVariables r.2)).map f := by
      induction rules with
      | nil => rfl
      | cons r rules ih =>
        have ih := ih (by simp [renameRule, Function.comp_def])
        simp only [List.map_cons, List.flatMap_cons, List.map_append, ih, renameRule, hbv]
    have h3 : ∀ l vs : List V, ((vs.map f).all fun v => (l.map f).contains v) = (vs.all fun v => l.contains v) := by
      intro l vs
      rw [List.all_map]
      congr 1
      funext v
      rw [Bool.eq_iff_iff]
      simp only [Function.comp, List.contains_iff_mem, List.mem_map]
      exact ⟨fun ⟨w, hw, h⟩ => hf _ _ h ▸ hw, fun h => ⟨v, h, rfl⟩⟩
    simp only [GrammarBuilder.build, renameBuilder, Option.map_some, h1, h2, ← List.map_cons, h3]
    split <;> rfl

theorem Built.rename (hf : ∀ v w, f v = f w → v = w) (hk : ∀ t u, k t = k u → t = u) (hg : Built g) :
    Built (g.rename f k) := by
  obtain ⟨calls, h⟩ := hg
  exact ⟨calls.map (BuilderCall.rename f k), by rw [c64_builder hf hk, h]; rfl⟩

/-! ## The parser -/

/-- C64, the full claim: if the variables and terminals of a grammar get other names, there is a parser if there was one,
and it does the same, with the other names. -/
def C64 : Prop :=
  ∀ (V T V' T' : Type) [DecidableEq V] [DecidableEq T] [DecidableEq V'] [DecidableEq T'] [TerminalEq T]
    [LawfulTerminalEq T] [TerminalEq T'] [LawfulTerminalEq T'] (f : V → V') (k : T → T') (g : Grammar V T)
    (tbl : Table V T), Renaming f k → Built g → IsParser g tbl →
    (∃ tbl', IsParser (g.rename f k) tbl') ∧
    ∀ tbl', IsParser (g.rename f k) tbl' → ∀ fuel w,
      parseTokens tbl' fuel (w.map k) = renameResult (Option.map (Node.rename f k)) (parseTokens tbl fuel w)

/-- C64 does not hold, even if no name is changed: iteration orders differ (C42). -/
theorem c64_false : ¬ C64 := by
  intro h
  have hid : deadEnd.rename id id = deadEnd := by decide
  have h1 := (h _ _ _ _ id id deadEnd _ ⟨fun _ _ h => h, fun _ _ h => h, fun _ _ => rfl⟩ deadEnd_built deadEnd_parser).2 _
    (hid.symm ▸ deadEnd_parser') 10 ["c"]
  revert h1
  decide +kernel

variable [TerminalEq T] [LawfulTerminalEq T] [TerminalEq T'] [LawfulTerminalEq T'] [Nonempty T] {tbl : Table V T}
  {tbl' : Table V' T'}

omit [DecidableEq V] [DecidableEq T] [DecidableEq V'] [DecidableEq T'] [LawfulTerminalEq T] [LawfulTerminalEq T'] in
theorem _root_.Pango.Spec.Renaming.undo (hr : Renaming f k) (g : Grammar V T) :
    ∃ (f' : V' → V) (k' : T' → T), (∀ v, f' (f v) = v) ∧ ∀ t, k' (k t) = t := by
  obtain ⟨f', hf'⟩ := undo_of_inj g.start hr.vars
  obtain ⟨k', hk'⟩ := undo_of_inj (Classical.ofNonempty : T) hr.terms
  exact ⟨f', k', hf', hk'⟩

omit [DecidableEq V] [DecidableEq T] [TerminalEq T] [LawfulTerminalEq T] [DecidableEq V'] [DecidableEq T']
  [TerminalEq T'] [LawfulTerminalEq T'] [Nonempty T] in
theorem surelyFollowed_rename {v : V} (h : SurelyFollowed g v) : SurelyFollowed (g.rename f k) (f v) := by
  rcases h with ⟨t, h⟩ | h | ⟨w, pre, hr, h⟩
  · exact .inl ⟨_, h.rename⟩
  · exact .inr (.inl h.rename)
  · have h2 := rename_rule (f := f) (k := k) hr
    rw [List.map_append] at h2
    exact .inr (.inr ⟨_, _, h2, h.rename⟩)

/-- C64, existence: if the start variable is surely followed, or nothing can stand behind it, and there is a parser,
then under every iteration order there is a parser for the grammar with other names. -/
theorem c64_exists_partial (hr : Renaming f k) (hg : Built g) (hp : IsParser g tbl)
    (hd : SurelyFollowed g g.start ∨ ¬ Followable g g.start) :
    ∃ bound, ∀ fuel ≥ bound, ∀ ord : HashOrder, ∃ tbl', slrNew (g.rename f k) ord fuel = .ok tbl' := by
  obtain ⟨f', k', hf, hk⟩ := hr.undo g
  obtain ⟨c, follow, fo, ok⟩ := hp.ok hg
  have hg' := hg.rename hr.vars hr.terms
  refine ⟨tableFuel (g.rename f k), fun fuel hfuel ord => ?_⟩
  obtain ⟨c', follow', _, fo', h⟩ := slrNew_iff hg'.wellFormed ord hfuel
  have he : Entry g follow = Entry (g.rename f k) follow' := by
    apply propext
    rcases hd with h | h
    · exact ⟨fun _ => fo'.surely (surelyFollowed_rename h), fun _ => fo.surely h⟩
    · exact ⟨fun h' => absurd (fo.entered _ h').followable h,
        fun h' => absurd (Followable.undo hf hk (fo'.entered _ h').followable) h⟩
  rcases h with ⟨_, tbl', h, _⟩ | ⟨h, _⟩
  · exact ⟨tbl', h⟩
  · refine absurd (fun γ p p' o o' h1 h2 ho => ?_) h
    obtain ⟨γ, _, _, rfl, _⟩ := h1.viable.renamed
    obtain ⟨v, i, o, rfl, rfl, h1'⟩ := h1.undo hf hk
    obtain ⟨v', i', o', rfl, rfl, h2'⟩ := h2.undo hf hk
    rw [keyEq_rename hr.kinds] at ho
    rw [← he] at h1' h2'
    obtain ⟨h3, rfl⟩ := ok.uniq _ _ _ _ _ h1' h2' ho
    cases h3
    exact ⟨rfl, rfl⟩

/-- Parsers that are the same machine, with other names, do the same. -/
theorem agrees_rename (hr : Renaming f k) {a : Prop} (h3 : Agrees g tbl a) (h3' : Agrees (g.rename f k) tbl' a)
    (fuel : Nat) (w : List T) : SameButPanic (parseTokens tbl' fuel (w.map k))
      (renameResult (Option.map (Node.rename f k)) (parseTokens tbl fuel w)) := by
  obtain ⟨f', k', hf, hk⟩ := hr.undo g
  obtain ⟨m1, m2, _, m4⟩ := h3 fuel w
  obtain ⟨n1, n2, _, n4⟩ := h3' fuel (w.map k)
  have hrun : ∀ {n s}, MachineRun g a w n s → MachineRun (g.rename f k) a (w.map k) n (s.rename f k) :=
    fun h => h.rename hf hk hr.kinds
  have herr : (∃ n < fuel, MachineRun g a w n .error ∨ MachineRun g a w n .underflow) →
      parseTokens tbl' fuel (w.map k) = .ok none ∨ parseTokens tbl' fuel (w.map k) = .panic := by
    rintro ⟨n, hn, h | h⟩
    · exact n2.2 ⟨n, hn, .inl (hrun h)⟩
    · exact n2.2 ⟨n, hn, .inr (hrun h)⟩
  cases hres : parseTokens tbl fuel w with
  | ok r =>
    cases r with
    | some n =>
      obtain ⟨m, hm, h⟩ := (m1 n).1 hres
      exact .inl ((n1 _).2 ⟨m, hm, hrun h⟩)
    | none => exact .inr ⟨herr (m2.1 (.inl hres)), .inl rfl⟩
  | panic => exact .inr ⟨herr (m2.1 (.inr hres)), .inr rfl⟩
  | diverge =>
    obtain ⟨x, h⟩ := m4.1 hres
    exact .inl (n4.2 ⟨_, h.rename hr.kinds⟩)

/-- C64 under this condition: with other names every parser does the same, except that it may return an error instead of
panicking, or the other way round. -/
theorem c64_partial (hr : Renaming f k) (hg : Built g) (hp : IsParser g tbl) (hp' : IsParser (g.rename f k) tbl')
    (hd : SurelyFollowed g g.start ∨ ¬ Followable g g.start) (fuel : Nat)
    (w : List T) : SameButPanic (parseTokens tbl' fuel (w.map k))
      (renameResult (Option.map (Node.rename f k)) (parseTokens tbl fuel w)) := by
  obtain ⟨f', k', hf, hk⟩ := hr.undo g
  obtain ⟨a, h1, h2, h3⟩ := c62_machine_partial hg hp
  obtain ⟨a', h1', h2', h3'⟩ := c62_machine_partial (hg.rename hr.vars hr.terms) hp'
  have ha : a = a' := by
    apply propext
    rcases hd with h | h
    · exact ⟨fun _ => h1' (surelyFollowed_rename h), fun _ => h1 h⟩
    · exact ⟨fun k => absurd (h2 k) h, fun k => absurd (Followable.undo hf hk (h2' k)) h⟩
  subst ha
  exact agrees_rename hr h3 h3' fuel w

omit [DecidableEq V] [DecidableEq T] [DecidableEq V'] [DecidableEq T'] [TerminalEq T] [LawfulTerminalEq T]
  [TerminalEq T'] [LawfulTerminalEq T'] [Nonempty T] in
theorem Trim.rename (ht : Trim g) : Trim (g.rename f k) := by
  refine ⟨fun v β hr he => ?_, fun v β hr => ?_, fun v β hr => ?_, ?_⟩
  · obtain ⟨v, β, rfl, rfl, hr'⟩ := renamed_rule hr
    obtain ⟨x, hx, h⟩ := List.mem_map.1 he
    cases x with
    | eps => exact ht.epsFree _ _ hr' hx
    | var _ => cases h
    | term _ => cases h
  · obtain ⟨v, β, rfl, rfl, hr'⟩ := renamed_rule hr
    exact (ht.reachable _ _ hr').rename
  · obtain ⟨v, β, rfl, rfl, hr'⟩ := renamed_rule hr
    obtain ⟨t, h⟩ := ht.first _ _ hr'
    exact ⟨_, h.rename⟩
  · obtain ⟨t, h⟩ := ht.start
    exact ⟨_, h.rename⟩

/-- C64 for trim grammars, in full. -/
theorem c64_trim_partial (hr : Renaming f k) (hg : Built g) (hp : IsParser g tbl) (ht : Trim g) :
    (∃ tbl', IsParser (g.rename f k) tbl') ∧
    ∀ tbl', IsParser (g.rename f k) tbl' → ∀ fuel w,
      parseTokens tbl' fuel (w.map k) = renameResult (Option.map (Node.rename f k)) (parseTokens tbl fuel w) := by
  have hd : SurelyFollowed g g.start ∨ ¬ Followable g g.start := .inl (.inl ht.start)
  refine ⟨?_, fun tbl' hp' fuel w => ?_⟩
  · obtain ⟨bound, h⟩ := c64_exists_partial hr hg hp hd
    obtain ⟨tbl', h⟩ := h bound (Nat.le_refl _) .insertion
    exact ⟨tbl', bound, .insertion, h⟩
  · have h1 := c41_trim_partial hg hp ht fuel w
    have h2 := c41_trim_partial (hg.rename hr.vars hr.terms) hp' (ht.rename (f := f) (k := k)) fuel (w.map k)
    have h3 := c64_partial hr hg hp hp' hd fuel w
    cases hres : parseTokens tbl fuel w with
    | panic => exact absurd hres h1
    | ok r =>
      rw [hres] at h3
      rcases h3 with h | ⟨h | h, h' | h'⟩
      · exact h
      · rw [h, h']
      · cases h'
      · exact absurd h h2
      · cases h'
    | diverge =>
      rw [hres] at h3
      rcases h3 with h | ⟨_, h' | h'⟩
      · exact h
      · cases h'
      · cases h'

/-! ## Instances -/

/-- Prefixes for the names. -/
theorem prefixed : Renaming (fun v : String => "var_" ++ v) (fun t : String => "tok_" ++ t) := by
  have h : ∀ p a b : String, p ++ a = p ++ b → a = b := by
    intro p a b h
    have := congrArg String.toList h
    simp only [String.toList_append, List.append_cancel_left_eq] at this
    exact String.toList_inj.1 this
  refine ⟨h _, h _, fun t u => ?_⟩
  change ("tok_" ++ t == "tok_" ++ u) = (t == u)
  rw [Bool.eq_iff_iff, beq_iff_eq, beq_iff_eq]
  exact ⟨h _ _ _, fun h => by rw [h]⟩

example (calls : List (BuilderCall String String)) :
    (runCalls (calls.map (BuilderCall.rename (fun v => "var_" ++ v) (fun t => "tok_" ++ t)))).build =
      renameResult (Grammar.rename (fun v => "var_" ++ v) (fun t => "tok_" ++ t)) (runCalls calls).build :=
  c64_builder prefixed.vars prefixed.terms calls

/-- `P → P Q ; | Q ;`, `Q → x | ( Q )` with longer names. -/
example : ∃ tbl', IsParser (goodGrammar.rename (fun v => "var_" ++ v) (fun t => "tok_" ++ t)) tbl' ∧
    ∀ fuel w, parseTokens tbl' fuel (w.map fun t => "tok_" ++ t) =
      renameResult (Option.map (Node.rename (fun v => "var_" ++ v) (fun t => "tok_" ++ t)))
        (parseTokens (tableOf goodGrammar) fuel w) := by
  obtain ⟨⟨tbl', h⟩, h'⟩ := c64_trim_partial prefixed goodGrammar_built goodGrammar_parser goodGrammar_trim
  exact ⟨tbl', h, h' tbl' h⟩

/-- `S → a d | c`, which is not trim, with longer names. -/
example : ∃ bound, ∀ fuel ≥ bound, ∀ ord : HashOrder, ∃ tbl',
    slrNew (deadEnd.rename (fun v => "var_" ++ v) (fun t => "tok_" ++ t)) ord fuel = .ok tbl' :=
  c64_exists_partial prefixed deadEnd_built deadEnd_parser (.inr deadEnd_unfollowed)

example (tbl' : Table String String)
    (hp' : IsParser (deadEnd.rename (fun v => "var_" ++ v) (fun t => "tok_" ++ t)) tbl') (fuel : Nat)
    (w : List String) : SameButPanic (parseTokens tbl' fuel (w.map fun t => "tok_" ++ t))
      (renameResult (Option.map (Node.rename (fun v => "var_" ++ v) (fun t => "tok_" ++ t)))
        (parseTokens (tableOf deadEnd) fuel w)) :=
  c64_partial prefixed deadEnd_built deadEnd_parser hp' (.inr deadEnd_unfollowed) fuel w

end Pango.Props
