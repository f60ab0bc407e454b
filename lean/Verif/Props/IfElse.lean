import Verif.Proofs.IfElse
import Verif.Props.EndMarker

/-!
# C123: an `else` belongs to the nearest `if`
-/

namespace Pango.Props

open Pango Pango.Parse Pango.Spec

/-! ## The grammar that leaves it open -/

section
variable {V T : Type} [DecidableEq V] [DecidableEq T] [TerminalEq T] [LawfulTerminalEq T] {g : Grammar V T}

omit [DecidableEq V] [DecidableEq T] in
private theorem reachable_twice (wf : Spec.WellFormed g) (hp : Productive g) {v : V} (hv : Reachable g v) :
    ∀ {n m : Node V T} {x : List T}, n ≠ m → Forest g [.var v] [n] x → Forest g [.var v] [m] x →
      ∃ w n' m', n' ≠ m' ∧ ParseTree g n' w ∧ ParseTree g m' w := by
  induction hv with
  | start => exact fun hne h1 h2 => ⟨_, _, _, hne, h1, h2⟩
  | @step h v β _ hr hmem ih =>
    intro n m x hne h1 h2
    obtain ⟨pre, post, rfl⟩ := List.append_of_mem hmem
    obtain ⟨ns, u, k1⟩ := productive_all hp LawfulTerminalEq.refl (α := pre)
      fun w hw => wf.closed _ _ w hr (by simp [hw])
    obtain ⟨ms, y, k2⟩ := productive_all hp LawfulTerminalEq.refl (α := post)
      fun w hw => wf.closed _ _ w hr (by simp [hw])
    have both : ∀ {k : Node V T}, Forest g [.var v] [k] x →
        Forest g [.var h] [.mk (.var h) (ns ++ ([k] ++ ms)).reverse] (u ++ (x ++ y) ++ []) := fun hk =>
      .var (β := pre ++ ([.var v] ++ post)) hr (forest_append k1 (forest_append hk k2)) .nil
    refine ih (fun heq => hne ?_) (both h1) (both h2)
    simpa using heq

/-- C123.  If a variable that can be reached has two trees for the same tokens then there is no parser. -/
theorem c123_two_trees (hg : Built g) (he : EpsFree g) (hprod : Productive g) {v : V} (hv : Reachable g v)
    {n m : Node V T} {x : List T} (hne : n ≠ m) (h1 : Forest g [.var v] [n] x) (h2 : Forest g [.var v] [m] x)
    {z : V} {e f : T} (hn : NotIn g z e f) : ¬ ∃ tbl, IsParser (withEnd g z e f) tbl := by
  rintro ⟨tbl, hp⟩
  obtain ⟨w, n', m', h3, h4, h5⟩ := reachable_twice hg.wellFormed hprod hv hne h1 h2
  exact h3 (c86_unambiguous hg he hn hp h4 h5)

/-- C123.  With the rules `stmt → if stmt` and `stmt → if stmt else stmt` (whatever symbols are written for the `if` with
its condition and for the `else`) no grammar has a parser. -/
theorem c123_ambiguous (hg : Built g) (he : EpsFree g) (hprod : Productive g) {stmt : V} (hv : Reachable g stmt)
    {iff els : List (Sym V T)} (h1 : (stmt, iff ++ [.var stmt]) ∈ g.rules)
    (h2 : (stmt, iff ++ [.var stmt] ++ els ++ [.var stmt]) ∈ g.rules) {z : V} {e f : T} (hn : NotIn g z e f) :
    ¬ ∃ tbl, IsParser (withEnd g z e f) tbl := by
  have wf := hg.wellFormed
  obtain ⟨is, u, k1⟩ := productive_all hprod LawfulTerminalEq.refl (α := iff)
    fun w hw => wf.closed _ _ w h1 (by simp [hw])
  obtain ⟨es, y, k2⟩ := productive_all hprod LawfulTerminalEq.refl (α := els)
    fun w hw => wf.closed _ _ w h2 (by simp [hw])
  obtain ⟨s, x, k3⟩ := hprod stmt _ h1
  have short : ∀ {n : Node V T} {w : List T}, Forest g [.var stmt] [n] w →
      Forest g [.var stmt] [.mk (.var stmt) (is ++ [n]).reverse] (u ++ w) := fun h => by
    simpa using Forest.var h1 (forest_append k1 h) .nil
  have long : ∀ {n : Node V T} {w : List T}, Forest g [.var stmt] [n] w →
      Forest g [.var stmt] [.mk (.var stmt) (is ++ [n] ++ es ++ [s]).reverse] (u ++ w ++ y ++ x) := fun h => by
    simpa using Forest.var h2 (forest_append (forest_append (forest_append k1 h) k2) k3) .nil
  have t1 := short (long k3)
  have t2 := long (short k3)
  rw [show u ++ (u ++ x) ++ y ++ x = u ++ (u ++ x ++ y ++ x) by simp] at t2
  refine c123_two_trees hg he hprod hv (fun h => ?_) t1 t2 hn
  have := congrArg (fun n : Node V T => match n with | .mk _ cs => cs.length) h
  simp at this
  omega

/-- C123.  If two rules of a variable that can be reached begin with terminals of the same kind, as those of the textbook
do, then there is no parser. -/
theorem c123_direct (hg : Built g) (he : EpsFree g) {v : V} (hv : Reachable g v) {t u : T} {α β : List (Sym V T)}
    (h1 : (v, .term t :: α) ∈ g.rules) (h2 : (v, .term u :: β) ∈ g.rules) (htu : teq t u = true)
    (hne : (.term t :: α : List (Sym V T)) ≠ .term u :: β) {z : V} {e f : T} (hn : NotIn g z e f) :
    ¬ ∃ tbl, IsParser (withEnd g z e f) tbl := by
  rw [(c86_table hg he hn).1]
  intro h
  obtain ⟨γ, hs⟩ := reachable_source he hv
  have viable : ∀ {δ}, (v, δ) ∈ g.rules → Viable g γ (v, ⟨δ, 0⟩) := by
    intro δ hr
    rcases hs with ⟨rfl, rfl⟩ | ⟨h', i, hv, hrd⟩
    · exact .start hr (fresh_plain (he _ _ hr))
    · exact .expand hv hrd hr (fresh_plain (he _ _ hr))
  have := (h _ _ _ _ _ (.shift (viable h1) (reads_iff.2 rfl)) (.shift (viable h2) (reads_iff.2 rfl)) htu).1
  simp only [Option.some.injEq, Prod.mk.injEq, Item.mk.injEq, true_and, and_true] at this
  exact hne this

end

/-! ## The grammar that settles it -/

instance : LawfulTerminalEq IfTok where
  refl t := by cases t <;> rfl
  symm s t h := by cases s <;> cases t <;> first | rfl | cases h
  trans s t u h h' := by cases s <;> cases t <;> cases u <;> first | rfl | (cases h; done) | (cases h'; done)

theorem if_built : Built ifGrammar :=
  ⟨[.setStart .stmt, .addRules .stmt [[.var .matched], [.var .unmatched]],
    .addRules .matched [[.term (.simple "")], [.var .cond, .var .matched, .var .els, .var .matched]],
    .addRules .unmatched [[.var .cond, .var .stmt], [.var .cond, .var .matched, .var .els, .var .unmatched]],
    .addRules .cond [[.term (.cond "")]], .addRules .els [[.term .els]]], by decide +kernel⟩

private def ifTable : Table IfVar IfTok :=
  match slrNew (withEnd ifGrammar .program .stop .never) .insertion 200 with
  | .ok t => t
  | _ => ⟨.program, [], []⟩

private theorem if_rules {P : IfVar → Body IfVar IfTok → Prop} [∀ v β, Decidable (P v β)]
    (h : ∀ r ∈ ifGrammar.rules, P r.1 r.2) : ∀ v β, (v, β) ∈ ifGrammar.rules → P v β := fun v β hr => h (v, β) hr

private theorem if_epsFree : EpsFree ifGrammar :=
  if_rules (P := fun _ β => Sym.eps ∉ β) (by decide)

private theorem if_terms : ∀ v β t, (v, β) ∈ ifGrammar.rules → Sym.term t ∈ β →
    teq t IfTok.stop = false ∧ teq t IfTok.never = false := by
  have h : ∀ r ∈ ifGrammar.rules, ∀ x ∈ r.2, match x with
      | .term t => teq t IfTok.stop = false ∧ teq t IfTok.never = false
      | _ => True := by
    intro r hr
    simp only [ifGrammar, List.mem_cons, List.not_mem_nil, or_false] at hr
    rcases hr with rfl | rfl | rfl | rfl | rfl | rfl | rfl | rfl <;> simp <;> decide
  exact fun v β t hr ht => h (v, β) hr (.term t) ht

private theorem if_notIn : NotIn ifGrammar .program .stop .never where
  head := by
    intro β h
    have : ∀ r ∈ ifGrammar.rules, r.1 ≠ .program := by decide
    exact this _ h rfl
  marker v β t h ht := (if_terms v β t h ht).1
  never v β t h ht := (if_terms v β t h ht).2
  differ := by decide

private theorem if_reachable : ∀ v β, (v, β) ∈ ifGrammar.rules → Reachable ifGrammar v := by
  have h1 : Reachable ifGrammar .stmt := .start
  have h2 : Reachable ifGrammar .matched := .step (β := [.var .matched]) h1 (by simp [ifGrammar]) (by simp)
  have h3 : Reachable ifGrammar .unmatched := .step (β := [.var .unmatched]) h1 (by simp [ifGrammar]) (by simp)
  have h4 : Reachable ifGrammar .cond := .step (β := [.var .cond, .var .stmt]) h3 (by simp [ifGrammar]) (by simp)
  have h5 : Reachable ifGrammar .els :=
    .step (β := [.var .cond, .var .matched, .var .els, .var .matched]) h2 (by simp [ifGrammar]) (by simp)
  intro v β h
  cases v with
  | program => exact absurd h (if_notIn.head β)
  | _ => assumption

private theorem if_first : ∀ v β, (v, β) ∈ ifGrammar.rules → ∃ t, InFirst ifGrammar [.var v] (.term t) := by
  have one : ∀ {v : IfVar} (t : IfTok), Starts ifGrammar t [.var v] →
      ∃ t, InFirst ifGrammar [.var v] (.term t) := fun t h => ⟨t, derives_starts.2 h⟩
  intro v β h
  cases v with
  | stmt => exact one (.simple "") (.inVar (β := [.var .matched]) (by simp [ifGrammar])
      (.inVar (β := [.term (.simple "")]) (by simp [ifGrammar]) .term))
  | matched => exact one (.simple "") (.inVar (β := [.term (.simple "")]) (by simp [ifGrammar]) .term)
  | unmatched => exact one (.cond "") (.inVar (β := [.var .cond, .var .stmt]) (by simp [ifGrammar])
      (.inVar (β := [.term (.cond "")]) (by simp [ifGrammar]) .term))
  | cond => exact one (.cond "") (.inVar (β := [.term (.cond "")]) (by simp [ifGrammar]) .term)
  | els => exact one .els (.inVar (β := [.term .els]) (by simp [ifGrammar]) .term)
  | program => exact absurd h (if_notIn.head β)

/-- C123.  The grammar can be built, and has a parser whatever the iteration order. -/
theorem c123_builds : Built ifGrammar ∧ (∃ tbl, IsParser (withEnd ifGrammar .program .stop .never) tbl) ∧
    ∃ bound, ∀ fuel ≥ bound, ∀ ord : HashOrder, ∃ tbl, slrNew (withEnd ifGrammar .program .stop .never) ord fuel = .ok tbl := by
  have h : ∃ tbl, IsParser (withEnd ifGrammar .program .stop .never) tbl := ⟨ifTable, 200, .insertion, by decide +kernel⟩
  obtain ⟨h1, bound, h2⟩ := c86_table if_built if_epsFree if_notIn
  exact ⟨if_built, h, bound, fun fuel hf ord => (h2 fuel hf ord).2 (h1.1 h)⟩

variable {tbl : Table IfVar IfTok}

/-- C123.  The parser returns on every input, after a linear number of iterations: for the text of a statement in which
every `else` belongs to the nearest `if` it returns the tree of that statement, and an error for everything else. -/
theorem c123_reads (hp : IsParser (withEnd ifGrammar .program .stop .never) tbl) {input : List IfTok}
    (hi : .never ∉ input) {fuel : Nat} (hf : 12 * (2 * input.length + 1) < fuel) :
    ∃ r, parseTokens tbl fuel input = .ok r ∧ ∀ n, r = some n ↔ ∃ s : IfStmt, s.Nearest ∧ input = s.tokens ++ [.stop] ∧
      n = .mk (.var .program) [.mk (.term .stop) [], .mk (.var .stmt) [s.tree]] := by
  obtain ⟨r, h1, h2⟩ := c86_reads if_built if_epsFree if_reachable if_first if_notIn hp (input := input) (fuel := fuel)
    (by
      intro t ht
      cases t <;> first | rfl | exact absurd ht hi) (by
      rw [show ifGrammar.rules.length = 8 from rfl]
      omega)
  refine ⟨r, h1, fun n => ?_⟩
  rw [h2]
  constructor
  · rintro ⟨w, e', m, rfl, h3, h4, rfl⟩
    obtain ⟨s, h5, rfl, rfl⟩ := if_tree.1 h4
    obtain rfl : e' = .stop := by
      cases e' <;> first | rfl | cases h3
    exact ⟨s, h5, rfl, rfl⟩
  · rintro ⟨s, h3, rfl, rfl⟩
    exact ⟨s.tokens, .stop, _, rfl, rfl, if_tree.2 ⟨s, h3, rfl, rfl⟩, rfl⟩

/-- C123.  However the `else`s of a statement are meant, its text is that of exactly one statement in which every `else`
belongs to the nearest `if`. -/
theorem c123_one (s : IfStmt) : ∃ s' : IfStmt, (s'.Nearest ∧ s'.tokens = s.tokens) ∧
    ∀ t : IfStmt, t.Nearest → t.tokens = s.tokens → t = s' := by
  obtain ⟨s', h1, h2⟩ := exists_nearest s
  refine ⟨s', ⟨h1, h2⟩, fun t h3 h4 => ?_⟩
  obtain ⟨tbl, hp⟩ := c123_builds.2.1
  have := c86_unambiguous if_built if_epsFree if_notIn hp (if_tree.2 ⟨t, h3, rfl, h4.symm⟩)
    (if_tree.2 ⟨s', h1, rfl, h2.symm⟩)
  exact IfStmt.tree_inj t s' (by simpa using this)

/-- C123.  Different statements have different trees. -/
theorem c123_tree {s t : IfStmt} (h : s.tree = t.tree) : s = t := IfStmt.tree_inj s t h

/-- C123.  So every text of a statement is read, as the statement in which every `else` belongs to the nearest `if`. -/
theorem c123_every (hp : IsParser (withEnd ifGrammar .program .stop .never) tbl) (s : IfStmt) {fuel : Nat}
    (hf : 12 * (2 * s.tokens.length + 3) < fuel) : ∃ s' : IfStmt, s'.Nearest ∧ s'.tokens = s.tokens ∧
      (s.Nearest → s' = s) ∧ parseTokens tbl fuel (s.tokens ++ [.stop]) =
        .ok (some (.mk (.var .program) [.mk (.term .stop) [], .mk (.var .stmt) [s'.tree]])) := by
  obtain ⟨s', ⟨h1, h2⟩, h3⟩ := c123_one s
  have never : ∀ s : IfStmt, .never ∉ s.tokens := by
    intro s
    induction s with
    | simple s => simp [IfStmt.tokens]
    | ifThen c a ih => simpa [IfStmt.tokens] using ih
    | ifElse c a b iha ihb => simp [IfStmt.tokens, iha, ihb]
  obtain ⟨r, h4, h5⟩ := c123_reads hp (input := s.tokens ++ [.stop]) (fuel := fuel) (by simp [never])
    (by simp only [List.length_append, List.length_singleton]; omega)
  refine ⟨s', h1, h2, fun h => (h3 s h rfl).symm, ?_⟩
  rw [h4, (h5 _).2 ⟨s', h1, by rw [h2], rfl⟩]

/-! ## Examples -/

/-- `if c (if d s) else t` is written like `if c (if d s else t)`, and read as that. -/
example (hp : IsParser (withEnd ifGrammar .program .stop .never) tbl) :
    parseTokens tbl 1000 [.cond "c", .cond "d", .simple "s", .els, .simple "t", .stop] =
      .ok (some (.mk (.var .program) [.mk (.term .stop) [],
        .mk (.var .stmt) [(IfStmt.ifThen "c" (.ifElse "d" (.simple "s") (.simple "t"))).tree]])) := by
  obtain ⟨s', h1, h2, _, h3⟩ := c123_every hp (.ifElse "c" (.ifThen "d" (.simple "s")) (.simple "t")) (fuel := 1000)
    (by decide)
  obtain ⟨u, _, h4⟩ := c123_one (.ifElse "c" (.ifThen "d" (.simple "s")) (.simple "t"))
  obtain rfl := h4 s' h1 h2
  have := h4 (.ifThen "c" (.ifElse "d" (.simple "s") (.simple "t"))) ⟨rfl, trivial, trivial⟩ rfl
  rw [this]
  exact h3

/-- The grammar that leaves it open: `stmt → s | cond stmt | cond stmt els stmt`. -/
def openGrammar : Grammar IfVar IfTok :=
  ⟨.stmt, [(.stmt, [.term (.simple "")]), (.stmt, [.var .cond, .var .stmt]),
    (.stmt, [.var .cond, .var .stmt, .var .els, .var .stmt]), (.cond, [.term (.cond "")]), (.els, [.term .els])]⟩

example : ¬ ∃ tbl, IsParser (withEnd openGrammar .program .stop .never) tbl := by
  have rule : ∀ {v β}, (v, β) ∈ openGrammar.rules → (∀ x ∈ β, x ≠ .eps) ∧ v ≠ .program ∧
      ∀ t, Sym.term t ∈ β → teq t IfTok.stop = false ∧ teq t IfTok.never = false := by
    intro v β h
    simp only [openGrammar, List.mem_cons, Prod.mk.injEq, List.not_mem_nil, or_false] at h
    rcases h with ⟨rfl, rfl⟩ | ⟨rfl, rfl⟩ | ⟨rfl, rfl⟩ | ⟨rfl, rfl⟩ | ⟨rfl, rfl⟩ <;> simp <;> decide
  refine c123_ambiguous (stmt := .stmt) (iff := [.var .cond]) (els := [.var .els]) ⟨[.setStart .stmt,
    .addRules .stmt [[.term (.simple "")], [.var .cond, .var .stmt], [.var .cond, .var .stmt, .var .els, .var .stmt]],
    .addRules .cond [[.term (.cond "")]], .addRules .els [[.term .els]]], by decide +kernel⟩
    (fun v β h h' => (rule h).1 _ h' rfl) ?_ .start (by simp [openGrammar]) (by simp [openGrammar])
    ⟨fun β h => (rule h).2.1 rfl, fun v β t h ht => ((rule h).2.2 t ht).1, fun v β t h ht => ((rule h).2.2 t ht).2,
      by decide⟩
  intro v β h
  have s := Forest.var (g := openGrammar) (v := .stmt) (β := [.term (.simple "")]) (w := [])
    (by simp [openGrammar]) (.term (u := .simple "") rfl .nil) .nil
  have c := Forest.var (g := openGrammar) (v := .cond) (β := [.term (.cond "")]) (w := [])
    (by simp [openGrammar]) (.term (u := .cond "") rfl .nil) .nil
  have e := Forest.var (g := openGrammar) (v := .els) (β := [.term .els]) (w := [])
    (by simp [openGrammar]) (.term (u := .els) rfl .nil) .nil
  simp only [openGrammar, List.mem_cons, Prod.mk.injEq, List.not_mem_nil, or_false] at h
  rcases h with ⟨rfl, _⟩ | ⟨rfl, _⟩ | ⟨rfl, _⟩ | ⟨rfl, _⟩ | ⟨rfl, _⟩
  · exact ⟨_, _, s⟩
  · exact ⟨_, _, s⟩
  · exact ⟨_, _, s⟩
  · exact ⟨_, _, c⟩
  · exact ⟨_, _, e⟩

/-- The rules of the textbook, with the terminals themselves. -/
def directIf : Grammar IfVar IfTok :=
  ⟨.stmt, [(.stmt, [.var .matched]), (.stmt, [.var .unmatched]),
    (.matched, [.term (.simple "")]), (.matched, [.term (.cond ""), .var .matched, .term .els, .var .matched]),
    (.unmatched, [.term (.cond ""), .var .stmt]),
    (.unmatched, [.term (.cond ""), .var .matched, .term .els, .var .unmatched])]⟩

example : ¬ ∃ tbl, IsParser (withEnd directIf .program .stop .never) tbl := by
  have rule : ∀ {v β}, (v, β) ∈ directIf.rules → (∀ x ∈ β, x ≠ .eps) ∧ v ≠ .program ∧
      ∀ t, Sym.term t ∈ β → teq t IfTok.stop = false ∧ teq t IfTok.never = false := by
    intro v β h
    simp only [directIf, List.mem_cons, Prod.mk.injEq, List.not_mem_nil, or_false] at h
    rcases h with ⟨rfl, rfl⟩ | ⟨rfl, rfl⟩ | ⟨rfl, rfl⟩ | ⟨rfl, rfl⟩ | ⟨rfl, rfl⟩ | ⟨rfl, rfl⟩ <;> simp <;> decide
  exact c123_direct (v := .unmatched) (t := .cond "") (u := .cond "") ⟨[.setStart .stmt,
    .addRules .stmt [[.var .matched], [.var .unmatched]],
    .addRules .matched [[.term (.simple "")], [.term (.cond ""), .var .matched, .term .els, .var .matched]],
    .addRules .unmatched [[.term (.cond ""), .var .stmt], [.term (.cond ""), .var .matched, .term .els, .var .unmatched]]],
      by decide +kernel⟩
    (fun v β h h' => (rule h).1 _ h' rfl)
    (.step (β := [.var .unmatched]) .start (by simp [directIf]) (by simp)) (α := [.var .stmt])
    (β := [.var .matched, .term .els, .var .unmatched]) (by simp [directIf]) (by simp [directIf]) rfl (by decide)
    ⟨fun β h => (rule h).2.1 rfl, fun v β t h ht => ((rule h).2.2 t ht).1, fun v β t h ht => ((rule h).2.2 t ht).2,
      by decide⟩

end Pango.Props
