import Verif.Proofs.Sentence
import Verif.Props.TextMachine

/-!
# C63: errors are found at the first token that cannot be right

`parseTokens tbl fuel w .diverge` is the parser on a lexer that returns the tokens `w`, and does not return from the call
after that.
-/

namespace Pango.Props

open Pango Pango.Lex Pango.Parse Pango.Spec

/-- C63, the full claim: if no sentence begins with the tokens, the parser returns an error without asking for more. -/
def C63 : Prop :=
  ∀ (V T : Type) [DecidableEq V] [DecidableEq T] [TerminalEq T] [LawfulTerminalEq T] (g : Grammar V T) (tbl : Table V T),
    Built g → IsParser g tbl → ∀ w, ¬ BeginsSentence g w → ∃ fuel, parseTokens tbl fuel w .diverge = .ok none

/-- The sentences of `S → a S | b` are `b`, `a b`, `a a b`, and so on. -/
theorem rightRec_sentence {α : List (Sym String String)} {ns : List (Node String String)} {w : List String}
    (h : Forest rightRec α ns w) : (α = [] → w = []) ∧
      (α = [.var "S"] ∨ α = [.term "a", .var "S"] ∨ α = [.term "b"] → ∃ k, w = List.replicate k "a" ++ ["b"]) := by
  induction h with
  | nil => simp
  | eps _ _ => simp
  | @term t u α _ w ht _ ih =>
    have hu : t = u := by simpa [teq] using ht
    subst hu
    refine ⟨by simp, ?_⟩
    rintro (h | h | h)
    · simp at h
    · simp only [List.cons.injEq, Sym.term.injEq] at h
      obtain ⟨rfl, h⟩ := h
      obtain ⟨k, rfl⟩ := ih.2 (.inl h)
      exact ⟨k + 1, rfl⟩
    · simp only [List.cons.injEq, Sym.term.injEq] at h
      obtain ⟨rfl, h⟩ := h
      rw [ih.1 h]
      exact ⟨0, rfl⟩
  | @var v β α _ _ x w hr _ _ ih1 ih2 =>
    refine ⟨by simp, ?_⟩
    rintro (h | h | h)
    · simp only [List.cons.injEq] at h
      rw [ih2.1 h.2, List.append_nil]
      simp only [rightRec, List.mem_cons, Prod.mk.injEq, List.not_mem_nil, or_false] at hr
      rcases hr with ⟨_, rfl⟩ | ⟨_, rfl⟩
      · exact ih1.2 (.inr (.inl rfl))
      · exact ih1.2 (.inr (.inr rfl))
    · simp at h
    · simp at h

theorem rightRec_not_begins : ¬ BeginsSentence rightRec ["a", "b", "b"] := by
  rintro ⟨rest, n, h⟩
  obtain ⟨k, hk⟩ := (rightRec_sentence h).2 (.inl rfl)
  match k with
  | 0 => simp at hk
  | 1 => simp [List.replicate] at hk
  | k + 2 => simp [List.replicate] at hk

/-- C63 does not hold: the parser of `S → a S | b` panics on `a b b`. -/
theorem c63_false : ¬ C63 := by
  intro h
  obtain ⟨fuel, h1⟩ := h _ _ rightRec _ rightRec_built rightRec_parser ["a", "b", "b"] rightRec_not_begins
  have h2 : parseTokens (tableOf rightRec) 10 ["a", "b", "b"] .diverge = .panic := by decide +kernel
  have h3 := (parseTokens_mono (tbl := tableOf rightRec) (fin := .diverge) (w := ["a", "b", "b"])
    (Nat.le_max_left fuel 10)).ok h1
  rcases parseTokens_mono (tbl := tableOf rightRec) (fin := .diverge) (w := ["a", "b", "b"])
    (Nat.le_max_right fuel 10) with h4 | h4
  · rw [h2] at h4; cases h4
  · rw [h2, h3] at h4; cases h4

/-- C63 without the claim that the error is not a panic. -/
def C63Stops : Prop :=
  ∀ (V T : Type) [DecidableEq V] [DecidableEq T] [TerminalEq T] [LawfulTerminalEq T] (g : Grammar V T) (tbl : Table V T),
    Built g → IsParser g tbl → ∀ w, ¬ BeginsSentence g w → ∃ fuel, parseTokens tbl fuel w .diverge ≠ .diverge

/-- `S → a B | c`, `B → b B`. -/
def endless : Grammar String String :=
  ⟨"S", [("S", [.term "a", .var "B"]), ("S", [.term "c"]), ("B", [.term "b", .var "B"])]⟩

theorem endless_built : Built endless :=
  ⟨[.setStart "S", .addRules "S" [[.term "a", .var "B"], [.term "c"]], .addRules "B" [[.term "b", .var "B"]]], by decide⟩

theorem endless_parser : IsParser endless (tableOf endless) := ⟨100, .insertion, by decide +kernel⟩

/-- No sentence of `S → a B | c`, `B → b B` begins with `a`. -/
theorem endless_not_a : ¬ BeginsSentence endless ["a"] := by
  have hno : ∀ {α : List (Sym String String)} {ns : List (Node String String)} {w : List String},
      Forest endless α ns w → .var "B" ∉ α := by
    intro α ns w hf
    induction hf with
    | nil => simp
    | eps _ ih => simpa using ih
    | term _ _ ih => simpa using ih
    | @var v β α _ _ _ _ hr _ _ ih1 ih2 =>
      simp only [endless, List.mem_cons, Prod.mk.injEq, List.not_mem_nil, or_false] at hr
      rcases hr with ⟨rfl, rfl⟩ | ⟨rfl, rfl⟩ | ⟨rfl, rfl⟩
      · simp at ih1
      · simpa using ih2
      · simp at ih1
  rintro ⟨rest, n, hn⟩
  obtain ⟨β, cs, hr, _, hf⟩ := parseTree_iff.1 hn
  simp only [endless, List.mem_cons, Prod.mk.injEq, List.not_mem_nil, or_false] at hr
  rcases hr with ⟨_, rfl⟩ | ⟨_, rfl⟩ | ⟨hs, _⟩
  · exact hno hf (by simp)
  · generalize hw : ["a"] ++ rest = w at hf
    cases hf with
    | term ht _ =>
      cases hw
      exact absurd ht (by decide)
  · exact absurd hs (by decide)

/-- Not even this holds: nothing is a sentence of `S → a B | c`, `B → b B` but `c`, and the parser reads on after
`a`. -/
theorem c63_stops_false : ¬ C63Stops := by
  intro h
  obtain ⟨fuel, h1⟩ := h _ _ endless _ endless_built endless_parser ["a"] endless_not_a
  obtain ⟨c, follow, _, ok⟩ := endless_parser.ok endless_built
  have hv : Viable endless [] ("S", ⟨[.term "a", .var "B"], 0⟩) :=
    .start (by simp [endless]) (fresh_plain (by simp))
  refine h1 (parse_hangs ok (k := 1) (y := ⟨[.term "a"], _, []⟩) (.step (.shift (γ := []) hv ⟨[], [.var "B"], rfl, rfl⟩ ?_) .refl)
    rfl fuel)
  rfl

/-- `S → S x A y | S A z | b`, `A → ε | a`. -/
def popEps : Grammar String String :=
  ⟨"S", [("S", [.var "S", .term "x", .var "A", .term "y"]), ("S", [.var "S", .var "A", .term "z"]), ("S", [.term "b"]),
    ("A", [.eps]), ("A", [.term "a"])]⟩

theorem popEps_built : Built popEps :=
  ⟨[.setStart "S", .addRules "S" [[.var "S", .term "x", .var "A", .term "y"], [.var "S", .var "A", .term "z"], [.term "b"]],
    .addRules "A" [[.eps], [.term "a"]]], by decide⟩

theorem popEps_parser : IsParser popEps (tableOf popEps) := ⟨100, .insertion, by decide +kernel⟩

/-- Whether the last token was `x`, behind which only `a` and `y` can stand. -/
private def afterX : Bool → String → Option Bool
  | false, t => some (t == "x")
  | true, t => if t = "a" ∨ t = "y" then some false else none

private def afterXs : Bool → List String → Option Bool
  | q, [] => some q
  | q, t :: w => (afterX q t).bind fun q => afterXs q w

private theorem afterXs_append {q : Bool} {v w : List String} :
    afterXs q (v ++ w) = (afterXs q v).bind fun q => afterXs q w := by
  induction v generalizing q with
  | nil => rfl
  | cons t v ih =>
    rw [List.cons_append, afterXs, afterXs]
    cases afterX q t with
    | none => rfl
    | some q => exact ih

/-- Nothing goes wrong with the symbols. -/
private def Fine : Bool → List (Sym String String) → Prop
  | _, [] => True
  | q, .eps :: α => Fine q α
  | q, .term t :: α => ∃ q', afterX q t = some q' ∧ Fine q' α
  | q, .var v :: α => (v = "S" → q = false) ∧ Fine false α ∧ (v = "A" → Fine q α)

private theorem popEps_fine {α : List (Sym String String)} {ns : List (Node String String)} {w : List String}
    (h : Forest popEps α ns w) : ∀ {q : Bool} {β : List (Sym String String)}, Fine q (α ++ β) →
      ∃ q', afterXs q w = some q' ∧ Fine q' β := by
  induction h with
  | nil => exact fun h => ⟨_, rfl, h⟩
  | eps _ ih => exact fun h => ih (by simpa [Fine] using h)
  | @term t u α _ w ht _ ih =>
    intro q β h
    have hu : t = u := by simpa [teq] using ht
    subst hu
    obtain ⟨q1, h1, h2⟩ := h
    obtain ⟨q2, h3, h4⟩ := ih h2
    exact ⟨q2, by rw [afterXs, h1]; exact h3, h4⟩
  | @var v γ α _ _ x w hr _ _ ih1 ih2 =>
    intro q β h
    obtain ⟨hs, h1, h2⟩ := h
    have h3 : Fine q (γ ++ (α ++ β)) := by
      simp only [popEps, List.mem_cons, Prod.mk.injEq, List.not_mem_nil, or_false] at hr
      rcases hr with ⟨rfl, rfl⟩ | ⟨rfl, rfl⟩ | ⟨rfl, rfl⟩ | ⟨rfl, rfl⟩ | ⟨rfl, rfl⟩
      · rw [hs rfl]
        exact ⟨fun _ => rfl, ⟨true, rfl, by simp, ⟨false, rfl, h1⟩, fun _ => ⟨false, rfl, h1⟩⟩, by simp⟩
      · rw [hs rfl]
        exact ⟨fun _ => rfl, ⟨by simp, ⟨false, rfl, h1⟩, fun _ => ⟨false, rfl, h1⟩⟩, by simp⟩
      · rw [hs rfl]
        exact ⟨false, rfl, h1⟩
      · exact h2 rfl
      · exact ⟨false, by cases q <;> rfl, h1⟩
    obtain ⟨q1, h4, h5⟩ := ih1 h3
    obtain ⟨q2, h6, h7⟩ := ih2 h5
    exact ⟨q2, by rw [afterXs_append, h4]; exact h6, h7⟩

/-- With epsilons it does not even hold if every variable can be reached and stands for something: no sentence of
`S → S x A y | S A z | b`, `A → ε | a` begins with `b x z`, and the parser reads it, takes `x` for an `A`, and asks for
more.  If there are none, it accepts. -/
theorem c63_epsilon_false : ¬ ∀ (V T : Type) [DecidableEq V] [DecidableEq T] [TerminalEq T] [LawfulTerminalEq T]
    (g : Grammar V T) (tbl : Table V T), Built g → IsParser g tbl → (∀ v β, (v, β) ∈ g.rules → Reachable g v) →
    Productive g → ∀ w, ¬ BeginsSentence g w → ∃ fuel, parseTokens tbl fuel w .diverge ≠ .diverge := by
  intro h
  have hb : Forest popEps [.var "S"] _ ["b"] := .var (w := []) (β := [.term "b"]) (by simp [popEps]) (.term rfl .nil) .nil
  have ha : Forest popEps [.var "A"] _ ["a"] := .var (w := []) (β := [.term "a"]) (by simp [popEps]) (.term rfl .nil) .nil
  obtain ⟨fuel, h1⟩ := h _ _ popEps _ popEps_built popEps_parser (by
      intro v β hr
      simp only [popEps, List.mem_cons, Prod.mk.injEq, List.not_mem_nil, or_false] at hr
      rcases hr with ⟨rfl, _⟩ | ⟨rfl, _⟩ | ⟨rfl, _⟩ | ⟨rfl, _⟩ | ⟨rfl, _⟩
      · exact .start
      · exact .start
      · exact .start
      · exact .step (h := "S") (β := [.var "S", .var "A", .term "z"]) .start (by simp [popEps]) (by simp)
      · exact .step (h := "S") (β := [.var "S", .var "A", .term "z"]) .start (by simp [popEps]) (by simp)) (by
      intro v β hr
      simp only [popEps, List.mem_cons, Prod.mk.injEq, List.not_mem_nil, or_false] at hr
      rcases hr with ⟨rfl, _⟩ | ⟨rfl, _⟩ | ⟨rfl, _⟩ | ⟨rfl, _⟩ | ⟨rfl, _⟩
      · exact ⟨_, _, hb⟩
      · exact ⟨_, _, hb⟩
      · exact ⟨_, _, hb⟩
      · exact ⟨_, _, ha⟩
      · exact ⟨_, _, ha⟩) ["b", "x", "z"] (by
      rintro ⟨rest, n, hn⟩
      obtain ⟨q, h1, _⟩ := popEps_fine hn (q := false) (β := []) ⟨fun _ => rfl, trivial, by simp [popEps]⟩
      exact absurd h1 (by simp [afterXs, afterX]))
  have h2 : parseTokens (tableOf popEps) 6 ["b", "x", "z"] = .ok (some (.mk (.var "S") [.mk (.term "z") [],
      .mk (.var "A") [.mk (.term "x") []], .mk (.var "S") [.mk (.term "b") []]])) := by decide +kernel
  obtain ⟨c, follow, _, ok⟩ := popEps_parser.ok popEps_built
  obtain ⟨k, γ, ns, i, h3, _⟩ := parseTokens_some ok h2
  exact h1 (parse_hangs ok h3 rfl fuel)

/-! ## What holds -/

variable {V T : Type} [DecidableEq V] [DecidableEq T] [TerminalEq T] [LawfulTerminalEq T] {g : Grammar V T}
  {tbl : Table V T}

/-- C63 for grammars without epsilon in which every variable can be reached and stands for something: whatever
comes behind the tokens, the result is an error or a panic, after a number of iterations that does not depend on it. -/
theorem c63_partial (hg : Built g) (hp : IsParser g tbl) (he : EpsFree g)
    (hreach : ∀ v β, (v, β) ∈ g.rules → Reachable g v) (hprod : Productive g) {w : List T} (hw : ¬ BeginsSentence g w)
    (more : List T) (fin : InputEnd) {fuel : Nat} (hf : (2 * w.length + 1) * (g.rules.length + 2) < fuel) :
    parseTokens tbl fuel (w ++ more) fin = .ok none ∨ parseTokens tbl fuel (w ++ more) fin = .panic := by
  obtain ⟨c, follow, _, ok⟩ := hp.ok hg
  rcases parse_run ok fuel w with ⟨h, _⟩ | ⟨k, hk, s, ⟨x, h1, h2⟩, _⟩
  · exact absurd h (c40_reachable_partial hg hp he hreach w hf)
  · have hx : x.input ≠ [] := fun hx =>
      hw (read_sentence hg.wellFormed he hprod LawfulTerminalEq.refl (shiftReduces_iff.1 h1) hx)
    have h3 := gives_stream ok (fin := fin) (h1.append more) (h2.append hx more)
      (fun h => by simp [Config.append] at h; exact absurd h.1 hx) hk
    have h4 : ∀ n, s ≠ .tree n := by
      rintro n rfl
      cases h2
      exact hx rfl
    revert h3
    rw [show (Config.start w : Config V T).input = w from rfl]
    generalize parseTokens tbl fuel (w ++ more) fin = r
    intro h3
    cases h3 with
    | tree => exact absurd rfl (h4 _)
    | error => exact .inl rfl
    | panic => exact .inr rfl
    | underflow => exact .inr rfl

/-- C63 for such grammars, exactly: the parser asks for another token if and only if what it has read begins a
sentence. -/
theorem c63_exact_partial (hg : Built g) (hp : IsParser g tbl) (he : EpsFree g)
    (hreach : ∀ v β, (v, β) ∈ g.rules → Reachable g v) (hprod : Productive g) (w : List T) :
    (∀ fuel, parseTokens tbl fuel w .diverge = .diverge) ↔ BeginsSentence g w := by
  obtain ⟨c, follow, _, ok⟩ := hp.ok hg
  constructor
  · intro h
    apply Classical.byContradiction
    intro hw
    have := c63_partial hg hp he hreach hprod hw [] .diverge (Nat.lt_succ_self _)
    rw [List.append_nil, h] at this
    simp at this
  · rintro ⟨rest, n, hn⟩ fuel
    obtain ⟨k, y, h1, h2⟩ := sentence_read hg.wellFormed he hn
    exact parse_hangs ok h1 h2 fuel

/-- One half of it for every grammar: if what the parser has read begins a sentence, and this has a tree without rules with
epsilon, then the parser asks for more. -/
theorem c63_reads_partial (hg : Built g) (hp : IsParser g tbl) {w : List T} (hw : BeginsSentence (dropEps g) w)
    (fuel : Nat) : parseTokens tbl fuel w .diverge = .diverge := by
  obtain ⟨c, follow, _, ok⟩ := hp.ok hg
  obtain ⟨rest, n, hn⟩ := hw
  obtain ⟨k, y, h1, h2⟩ := plain_read hg.wellFormed hn
  exact parse_hangs ok h1 h2 fuel

/-- C63 for trim grammars in which every variable stands for something, in full. -/
theorem c63_trim_partial (hg : Built g) (hp : IsParser g tbl) (ht : Trim g) (hprod : Productive g) {w : List T}
    (hw : ¬ BeginsSentence g w) (more : List T) (fin : InputEnd) (hfin : fin ≠ .panic) {fuel : Nat}
    (hf : (2 * w.length + 1) * (g.rules.length + 2) < fuel) : parseTokens tbl fuel (w ++ more) fin = .ok none := by
  rcases c63_partial hg hp ht.epsFree ht.reachable hprod hw more fin hf with h | h
  · exact h
  · obtain ⟨c, follow, _, ok⟩ := hp.ok hg
    refine absurd h (parse_no_panic hg.wellFormed ok ht.epsFree (fun v β hr => ?_) (fun v β hr => ?_) ht.var hfin)
    · obtain ⟨t, ht⟩ := ht.first v β hr
      exact ⟨t, derives_starts.1 ht⟩
    · obtain ⟨t, ht⟩ := ht.follow hg v β hr
      exact ⟨t, inFollow_iff.1 ht⟩

/-- C63 for text: if the first tokens of a text begin no sentence, an error is returned, whatever comes behind them; even
if the lexer does not return from later calls. -/
theorem c63_text_partial [Unicode] (hg : Built g) (hp : IsParser g tbl) (ht : Trim g) (hprod : Productive g) {p : Profile}
    {rules : List (List Char × (List Char → T))} {es : List Regex.Expr} {l : Lexer T} (hl : LexerFor p rules es l)
    {input : List Char} {ts : List (Tok T)} (hts : Scans es rules input (ts.map some))
    (hw : ¬ BeginsSentence g (ts.map Tok.kind)) : Parses l tbl input none := by
  obtain ⟨sim, it, h1⟩ := (c23_calls_partial p rules es l hl input ts.length _).2 ⟨by simp, hts⟩
  obtain ⟨fuel, hf⟩ : ∃ fuel, (2 * (ts.map Tok.kind).length + 1) * (g.rules.length + 2) + ts.length < fuel :=
    ⟨_, Nat.lt_succ_self _⟩
  obtain ⟨more, h2⟩ := calls_streamOf h1 (n := fuel) (by omega)
  refine ⟨sim, fuel, ?_⟩
  rw [parseText_eq (Nat.le_refl _), h2, List.map_append]
  exact c63_trim_partial hg hp ht hprod hw _ _
    (streamOf_no_panic fun n it => ((hl.toBuilt.safe sim).lexCalls n it).1) (by omega)

/-! ## Instances -/

/-- Every variable of `goodGrammar` stands for something: `Q` for `x`, `P` for `x ;`. -/
theorem goodGrammar_productive : Productive goodGrammar := by
  have hx : Forest goodGrammar [.term "x"] _ ["x"] := .term rfl .nil
  have hq : Forest goodGrammar [.var "Q"] _ ["x"] := .var (w := []) (by simp [goodGrammar]) hx .nil
  have hb : Forest goodGrammar [.var "Q", .term ";"] _ ["x", ";"] :=
    .var (w := [";"]) (by simp [goodGrammar]) hx (.term rfl .nil)
  have hp : Forest goodGrammar [.var "P"] _ ["x", ";"] := .var (w := []) (by simp [goodGrammar]) hb .nil
  intro v β hr
  simp only [goodGrammar, List.mem_cons, Prod.mk.injEq, List.not_mem_nil, or_false] at hr
  rcases hr with ⟨rfl, _⟩ | ⟨rfl, _⟩ | ⟨rfl, _⟩ | ⟨rfl, _⟩
  · exact ⟨_, _, hp⟩
  · exact ⟨_, _, hp⟩
  · exact ⟨_, _, hq⟩
  · exact ⟨_, _, hq⟩

theorem goodGrammar_no_xx : ¬ BeginsSentence goodGrammar ["x", "x"] := by
  intro h
  have h1 := (c63_exact_partial goodGrammar_built goodGrammar_parser goodGrammar_epsFree goodGrammar_reachable
    goodGrammar_productive _).2 h 10
  exact absurd h1 (by decide +kernel)

/-- Whatever follows `x x`, the parser of `goodGrammar` returns an error. -/
example (more : List String) : parseTokens (tableOf goodGrammar) 100 ("x" :: "x" :: more) = .ok none :=
  c63_trim_partial goodGrammar_built goodGrammar_parser goodGrammar_trim goodGrammar_productive goodGrammar_no_xx more _
    (by simp) (by decide)

/-- After `( (` it waits for more. -/
example (fuel : Nat) : parseTokens (tableOf goodGrammar) fuel ["(", "("] .diverge = .diverge := by
  have hx : Forest goodGrammar [.term "x"] _ ["x"] := .term rfl .nil
  have h1 : Forest goodGrammar [.term "(", .var "Q", .term ")"] _ ["(", "x", ")"] :=
    .term rfl (.var (w := [")"]) (by simp [goodGrammar]) hx (.term rfl .nil))
  have h2 : Forest goodGrammar [.term "(", .var "Q", .term ")"] _ ["(", "(", "x", ")", ")"] :=
    .term rfl (.var (w := [")"]) (by simp [goodGrammar]) h1 (.term rfl .nil))
  have h3 : Forest goodGrammar [.var "Q", .term ";"] _ ["(", "(", "x", ")", ")", ";"] :=
    .var (w := [";"]) (by simp [goodGrammar]) h2 (.term rfl .nil)
  have h4 : Forest goodGrammar [.var "P"] _ ["(", "(", "x", ")", ")", ";"] :=
    .var (w := []) (by simp [goodGrammar]) h3 .nil
  exact (c63_exact_partial goodGrammar_built goodGrammar_parser goodGrammar_epsFree goodGrammar_reachable
    goodGrammar_productive ["(", "("]).2 ⟨["x", ")", ")", ";"], _, h4⟩ fuel

/-- `b x` begins the sentence `b x a y` of `S → S x A y | S A z | b`, `A → ε | a`. -/
example (fuel : Nat) : parseTokens (tableOf popEps) fuel ["b", "x"] .diverge = .diverge := by
  have h : Forest (dropEps popEps) [.var "S"] _ ["b", "x", "a", "y"] :=
    .var (w := []) (β := [.var "S", .term "x", .var "A", .term "y"]) (by decide)
      (.var (x := ["b"]) (w := ["x", "a", "y"]) (β := [.term "b"]) (by decide) (.term rfl .nil) (.term rfl
        (.var (x := ["a"]) (w := ["y"]) (β := [.term "a"]) (by decide) (.term rfl .nil) (.term rfl .nil)))) .nil
  exact c63_reads_partial popEps_built popEps_parser (w := ["b", "x"]) ⟨["a", "y"], _, h⟩ fuel

/-- A text of two `x` and then anything is rejected, also if the lexer hangs on what comes next. -/
example (es : List Regex.Expr) (more : List Char) (l : Lexer String) [Unicode] (hl : LexerFor .debug stuckRules es l)
    (h : Scans es stuckRules ('x' :: 'x' :: more) [some ⟨"x", ['x'], (0, 1)⟩, some ⟨"x", ['x'], (1, 2)⟩]) :
    Parses l (tableOf goodGrammar) ('x' :: 'x' :: more) none :=
  c63_text_partial goodGrammar_built goodGrammar_parser goodGrammar_trim goodGrammar_productive hl
    (ts := [⟨"x", ['x'], (0, 1)⟩, ⟨"x", ['x'], (1, 2)⟩]) h goodGrammar_no_xx

end Pango.Props
