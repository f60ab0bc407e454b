import Verif.Proofs.Confuse
import Verif.Props.EndMarker

/-!
# C124: languages that no grammar makes parsable
-/

namespace Pango.Props

open Pango Pango.Parse Pango.Spec

variable {V T : Type} [DecidableEq V] [DecidableEq T] [TerminalEq T] [LawfulTerminalEq T] {g : Grammar V T} {z : V} {e f : T}
  {tbl : Table V T}

omit [DecidableEq V] [DecidableEq T] in
/-- The marker can be read behind the sentences, and only there. -/
theorem path_sentence (hg : Spec.WellFormed g) (hg' : Spec.WellFormed (Spec.withEnd g z e f)) (he : EpsFree g)
    (hn : NotIn g z e f) {w : List T} :
    (∃ γ, Path (Spec.withEnd g z e f) [] (w ++ [e]) γ) ↔ ∃ n, ParseTree g n w := by
  have he' := withEnd_epsFree (z := z) (e := e) (f := f) he
  constructor
  · rintro ⟨γ, h⟩
    have last : γ = [.var g.start, .term e] := by
      obtain ⟨γ1, _, h2⟩ := path_append.1 h
      replace h2 := path_one.1 h2
      clear h
      rename Path _ _ _ _ => hw
      clear hw
      induction h2 with
      | @shift γ h i t h1 hrd h3 =>
        obtain ⟨pre, post, h4, h5⟩ := hrd
        rcases (viable_withEnd hg hn).1 h1 with ⟨_, h6, _, h7⟩ | ⟨h6, h7⟩
        · simp only at h6 h7
          rcases h6 with h6 | h6
          · rw [h6] at h4 h7
            match pre with
            | [] => simp at h4
            | [_] =>
              simp at h4 h5
              rw [h7, h5, ← h4.2.1]
              rfl
            | _ :: _ :: _ => simp at h4
          · rw [h6] at h4
            match pre with
            | [] => simp at h4
            | [_] =>
              simp at h4
              rw [← h4.2.1] at h3
              exact absurd (LawfulTerminalEq.symm _ _ h3) (by simp [hn.differ])
            | _ :: _ :: _ => simp at h4
        · have := hn.marker _ _ t (Viable_ok h7).rule (by simp [h4])
          rw [h3] at this
          cases this
      | reduce _ _ ih => exact ih
    obtain ⟨k, ns, h1⟩ := h.moves [] []
    obtain ⟨d, h2, h3⟩ := h1.forest he' .nil
    simp only [List.append_nil, List.nil_append] at h2 h3
    subst h2
    rw [last] at h3
    have h4 : ParseTree (Spec.withEnd g z e f) (.mk (.var z) ns.reverse.reverse) (w ++ [e]) :=
      parseTree_iff.2 ⟨_, _, withEnd_mem.2 (.inr ⟨rfl, .inl rfl⟩), rfl, h3⟩
    rcases (tree_withEnd hg hn).1 h4 with ⟨u, e', m, h5, _, h6, _⟩ | ⟨u, f', m, h5, h6, _⟩
    · exact ⟨m, by rw [(List.append_inj' h5 rfl).1]; exact h6⟩
    · have := (List.append_inj' h5 rfl).2
      simp only [List.cons.injEq, and_true] at this
      rw [← this] at h6
      exact absurd (LawfulTerminalEq.symm _ _ h6) (by simp [hn.differ])
  · rintro ⟨n, h⟩
    obtain ⟨k, y, h1, h2⟩ := sentence_read (rest := []) (w := w ++ [e]) hg' he' (n := .mk (.var z) [.mk (.term e) [], n])
      (by simpa using (tree_withEnd hg hn).2 (.inl ⟨w, e, n, rfl, LawfulTerminalEq.refl e, h, rfl⟩))
    exact ⟨_, h1.path h2⟩

/-- C124.  Suppose that a sentence can begin with every word of some letters.  If the grammar has a parser then there are
two of these words, of different lengths, and as long as one likes, that the grammar does not tell apart: what makes a
sentence behind one makes a sentence behind the other. -/
theorem c124_confused (hg : Built g) (he : EpsFree g) (hn : NotIn g z e f) (hp : IsParser (Spec.withEnd g z e f) tbl)
    {A : T → Prop} {a : T} (ha : A a) (hall : ∀ w, (∀ t ∈ w, A t) → BeginsSentence g w) (m : Nat) :
    ∃ x y : List T, (∀ t ∈ x, A t) ∧ (∀ t ∈ y, A t) ∧ m ≤ x.length ∧ x.length < y.length ∧
      ∀ u, (∀ t ∈ u, A t) → ((∃ n, ParseTree g n (x ++ u)) ↔ ∃ n, ParseTree g n (y ++ u)) := by
  have hg' := hg.withEnd (e := e) (f := f) hn.head
  obtain ⟨c, follow, fo, ok⟩ := hp.ok hg'
  obtain ⟨x, y, h1, h2, h3, h4, h5⟩ := confused hg'.wellFormed (fun _ _ _ h h' => Move.det ok h h') (A := A)
    (fun w hw => by
      obtain ⟨rest, n, h⟩ := hall w hw
      obtain ⟨k, y, h1, h2⟩ := sentence_read (rest := rest ++ [e]) (w := w) hg'.wellFormed (withEnd_epsFree he)
        (n := .mk (.var z) [.mk (.term e) [], n])
        ((tree_withEnd hg.wellFormed hn).2 (.inl ⟨w ++ rest, e, n, by simp, LawfulTerminalEq.refl e, h, rfl⟩))
      exact ⟨_, h1.path h2⟩) ha e m
  refine ⟨x, y, h1, h2, h3, h4, fun u hu => ?_⟩
  rw [← path_sentence hg.wellFormed hg'.wellFormed he hn, ← path_sentence hg.wellFormed hg'.wellFormed he hn]
  exact h5 u hu

/-- C124.  There is no parser for palindromes: if the words of two letters that are sentences are the palindromes, then the
grammar has no parser, whatever its rules are. -/
theorem c124_palindromes (hg : Built g) (he : EpsFree g) (hn : NotIn g z e f) {a b : T} (hab : a ≠ b)
    (hpal : ∀ w, (∀ t ∈ w, t = a ∨ t = b) → ((∃ n, ParseTree g n w) ↔ w ≠ [] ∧ w.reverse = w)) :
    ¬ ∃ tbl, IsParser (Spec.withEnd g z e f) tbl := by
  rintro ⟨tbl, hp⟩
  obtain ⟨x, y, h1, h2, _, h3, h4⟩ := c124_confused hg he hn hp (A := fun t => t = a ∨ t = b) (.inl rfl)
    (by
      intro w hw
      have hw' : ∀ t ∈ w ++ [a] ++ w.reverse, t = a ∨ t = b := by
        intro t ht
        simp only [List.mem_append, List.mem_singleton, List.mem_reverse] at ht
        rcases ht with (ht | ht) | ht
        · exact hw t ht
        · exact .inl ht
        · exact hw t ht
      obtain ⟨n, h⟩ := (hpal _ hw').2 ⟨by simp, by simp⟩
      exact ⟨[a] ++ w.reverse, n, by simpa using h⟩) 0
  have other : ∃ d, (d = a ∨ d = b) ∧ d ≠ y[x.length]'h3 := by
    rcases h2 _ (List.getElem_mem h3) with h | h
    · exact ⟨b, .inr rfl, by rw [h]; exact hab.symm⟩
    · exact ⟨a, .inl rfl, by rw [h]; exact hab⟩
  obtain ⟨d, h5, h6⟩ := other
  have hu : ∀ t ∈ [d] ++ x.reverse, t = a ∨ t = b := by
    intro t ht
    rcases List.mem_append.1 ht with ht | ht
    · rwa [List.mem_singleton.1 ht]
    · exact h1 t (List.mem_reverse.1 ht)
  have both : ∀ {v}, (∀ t ∈ v, t = a ∨ t = b) → ∀ t ∈ v ++ ([d] ++ x.reverse), t = a ∨ t = b := by
    intro v hv t ht
    rcases List.mem_append.1 ht with ht | ht
    · exact hv t ht
    · exact hu t ht
  have h7 := ((hpal _ (both h2)).1 ((h4 _ hu).1 ((hpal _ (both h1)).2 ⟨by simp, by simp⟩))).2
  have h8 := congrArg (fun l => l[x.length]?) h7
  simp only [List.reverse_append, List.reverse_reverse, List.reverse_singleton] at h8
  rw [List.getElem?_append_left (l₁ := y) h3, List.getElem?_eq_getElem h3,
    List.append_assoc, List.getElem?_append_right (Nat.le_refl _)] at h8
  simp only [Nat.sub_self] at h8
  rw [List.getElem?_append_left (by simp)] at h8
  simp at h8
  exact h6 h8

/-! ## Examples -/

/-- `S → a | b | a a | b b | a S a | b S b`. -/
def palGrammar : Grammar String String :=
  ⟨"S", [("S", [.term "a"]), ("S", [.term "b"]), ("S", [.term "a", .term "a"]), ("S", [.term "b", .term "b"]),
    ("S", [.term "a", .var "S", .term "a"]), ("S", [.term "b", .var "S", .term "b"])]⟩

theorem pal_built : Built palGrammar :=
  ⟨[.setStart "S", .addRules "S" [[.term "a"], [.term "b"], [.term "a", .term "a"], [.term "b", .term "b"],
    [.term "a", .var "S", .term "a"], [.term "b", .var "S", .term "b"]]], by decide⟩

private theorem pal_rules {v : String} {β : Body String String} (h : (v, β) ∈ palGrammar.rules) :
    v = "S" ∧ ∃ c, (c = "a" ∨ c = "b") ∧ (β = [.term c] ∨ β = [.term c, .term c] ∨ β = [.term c, .var "S", .term c]) := by
  simp only [palGrammar, List.mem_cons, List.not_mem_nil, or_false, Prod.mk.injEq] at h
  rcases h with ⟨rfl, rfl⟩ | ⟨rfl, rfl⟩ | ⟨rfl, rfl⟩ | ⟨rfl, rfl⟩ | ⟨rfl, rfl⟩ | ⟨rfl, rfl⟩ <;> refine ⟨rfl, ?_⟩
  · exact ⟨"a", by simp⟩
  · exact ⟨"b", by simp⟩
  · exact ⟨"a", by simp⟩
  · exact ⟨"b", by simp⟩
  · exact ⟨"a", by simp⟩
  · exact ⟨"b", by simp⟩

private theorem pal_epsFree : EpsFree palGrammar := by
  intro v β h
  obtain ⟨_, c, _, rfl | rfl | rfl⟩ := pal_rules h <;> simp

private theorem pal_notIn : NotIn palGrammar "Z" "$" "#" where
  head β h := absurd (pal_rules h).1 (by decide)
  marker v β t h ht := by
    obtain ⟨_, c, rfl | rfl, rfl | rfl | rfl⟩ := pal_rules h <;> simp at ht <;> subst ht <;> decide
  never v β t h ht := by
    obtain ⟨_, c, rfl | rfl, rfl | rfl | rfl⟩ := pal_rules h <;> simp at ht <;> subst ht <;> decide
  differ := by decide

private theorem pal_teq {s t : String} (h : teq s t = true) : s = t := by
  have h : (s == t) = true := h
  exact eq_of_beq h

private theorem pal_only {n : Node String String} {w : List String} (h : ParseTree palGrammar n w) :
    w ≠ [] ∧ w.reverse = w := by
  suffices ∀ k (n : Node String String) (w : List String), w.length ≤ k → ParseTree palGrammar n w →
      w ≠ [] ∧ w.reverse = w from this _ n w (Nat.le_refl _) h
  intro k
  induction k with
  | zero =>
    intro n w hk h
    obtain ⟨β, cs, hr, _, hf⟩ := parseTree_iff.1 h
    obtain ⟨_, c, _, rfl | rfl | rfl⟩ := pal_rules hr <;> cases hf <;> simp at hk
  | succ k ih =>
    intro n w hk h
    obtain ⟨β, cs, hr, _, hf⟩ := parseTree_iff.1 h
    obtain ⟨_, c, _, rfl | rfl | rfl⟩ := pal_rules hr
    · cases hf with
      | term _ h2 =>
        cases h2
        simp
    · cases hf with
      | term h1 h2 =>
        cases h2 with
        | term h3 h4 =>
          cases h4
          rw [← pal_teq h1, ← pal_teq h3]
          simp
    · cases hf with
      | term h1 h2 =>
        cases h2 with
        | @var _ β _ cs _ x _ h3 h4 h5 =>
          cases h5 with
          | term h6 h7 =>
            cases h7
            have h8 := (ih (.mk (.var "S") cs.reverse) x (by simp at hk; omega)
              (parseTree_iff.2 ⟨β, cs, h3, rfl, h4⟩)).2
            rw [← pal_teq h1, ← pal_teq h6]
            simp [h8]

private theorem pal_every {w : List String} (hw : ∀ t ∈ w, t = "a" ∨ t = "b") (h0 : w ≠ []) (hr : w.reverse = w) :
    ∃ n, ParseTree palGrammar n w := by
  suffices ∀ k (w : List String), w.length ≤ k → (∀ t ∈ w, t = "a" ∨ t = "b") → w ≠ [] → w.reverse = w →
      ∃ n, ParseTree palGrammar n w from this _ w (Nat.le_refl _) hw h0 hr
  clear hw h0 hr w
  have rule : ∀ {c}, (c = "a" ∨ c = "b") → ("S", [.term c]) ∈ palGrammar.rules ∧
      ("S", [.term c, .term c]) ∈ palGrammar.rules ∧ ("S", [.term c, .var "S", .term c]) ∈ palGrammar.rules := by
    rintro c (rfl | rfl) <;> decide
  intro k
  induction k with
  | zero =>
    intro w hk _ h0
    exact absurd (List.eq_nil_of_length_eq_zero (Nat.le_zero.1 hk)) h0
  | succ k ih =>
    intro w hk hw h0 hr
    cases w with
    | nil => exact absurd rfl h0
    | cons c w =>
      have hc := hw c (by simp)
      rcases List.eq_nil_or_concat w with rfl | ⟨u, d, rfl⟩
      · exact ⟨_, parseTree_iff.2 ⟨_, _, (rule hc).1, rfl, .term (LawfulTerminalEq.refl c) .nil⟩⟩
      · simp only [List.concat_eq_append, List.reverse_cons, List.reverse_append, List.reverse_singleton,
          List.singleton_append, List.cons_append, List.cons.injEq, List.nil_append, List.reverse_nil] at hr
        obtain ⟨rfl, hr⟩ := hr
        have hu := (List.append_inj' hr rfl).1
        simp only [List.concat_eq_append]
        by_cases h1 : u = []
        · subst h1
          exact ⟨_, parseTree_iff.2 ⟨_, _, (rule hc).2.1, rfl,
            .term (LawfulTerminalEq.refl d) (.term (LawfulTerminalEq.refl d) .nil)⟩⟩
        · obtain ⟨n, h2⟩ := ih u (by simp at hk; omega) (fun t ht => hw t (by simp [ht])) h1 hu
          obtain ⟨β, cs, h3, _, h4⟩ := parseTree_iff.1 h2
          exact ⟨_, parseTree_iff.2 ⟨_, _, (rule hc).2.2, rfl, .term (LawfulTerminalEq.refl d)
            (.var h3 h4 (.term (LawfulTerminalEq.refl d) .nil))⟩⟩

/-- The grammar of palindromes: it is unambiguous, but there is no parser. -/
example : ¬ ∃ tbl, IsParser (withEnd palGrammar "Z" "$" "#") tbl :=
  c124_palindromes pal_built pal_epsFree pal_notIn (a := "a") (b := "b") (by decide) fun _ hw =>
    ⟨fun ⟨_, h⟩ => pal_only h, fun h => pal_every hw h.1 h.2⟩

/-- `S → S a | a`. -/
def someGrammar : Grammar String String := ⟨"S", [("S", [.var "S", .term "a"]), ("S", [.term "a"])]⟩

private theorem some_built : Built someGrammar :=
  ⟨[.setStart "S", .addRules "S" [[.var "S", .term "a"], [.term "a"]]], by decide⟩

private theorem some_rules {v : String} {β : Body String String} (h : (v, β) ∈ someGrammar.rules) :
    v = "S" ∧ (β = [.var "S", .term "a"] ∨ β = [.term "a"]) := by
  simp only [someGrammar, List.mem_cons, List.not_mem_nil, or_false, Prod.mk.injEq] at h
  rcases h with ⟨rfl, rfl⟩ | ⟨rfl, rfl⟩ <;> simp

private theorem some_epsFree : EpsFree someGrammar := by
  intro v β h
  obtain ⟨_, rfl | rfl⟩ := some_rules h <;> simp

private theorem some_notIn : NotIn someGrammar "Z" "$" "#" where
  head β h := absurd (some_rules h).1 (by decide)
  marker v β t h ht := by
    obtain ⟨_, rfl | rfl⟩ := some_rules h <;> simp at ht <;> subst ht <;> decide
  never v β t h ht := by
    obtain ⟨_, rfl | rfl⟩ := some_rules h <;> simp at ht <;> subst ht <;> decide
  differ := by decide

private theorem some_parser : IsParser (withEnd someGrammar "Z" "$" "#") (tableOf (withEnd someGrammar "Z" "$" "#")) :=
  ⟨100, .insertion, by decide +kernel⟩

/-- There are long words that the grammar does not tell apart: here it is any two of them. -/
example : ∃ x y : List String, (∀ t ∈ x, t = "a") ∧ (∀ t ∈ y, t = "a") ∧ 10 ≤ x.length ∧ x.length < y.length ∧
    ∀ u, (∀ t ∈ u, t = "a") → ((∃ n, ParseTree someGrammar n (x ++ u)) ↔ ∃ n, ParseTree someGrammar n (y ++ u)) := by
  refine c124_confused some_built some_epsFree some_notIn some_parser (A := fun t => t = "a") rfl ?_ 10
  intro w hw
  refine ⟨["a"], ?_⟩
  suffices ∀ k, ∃ n, ParseTree someGrammar n (List.replicate k "a" ++ ["a"]) by
    rw [List.eq_replicate_of_mem hw]
    exact this _
  intro k
  induction k with
  | zero => exact ⟨_, parseTree_iff.2 ⟨[.term "a"], _, by decide, rfl, .term (LawfulTerminalEq.refl _) .nil⟩⟩
  | succ k ih =>
    obtain ⟨n, h⟩ := ih
    obtain ⟨β, cs, h3, _, h4⟩ := parseTree_iff.1 h
    rw [List.replicate_succ']
    exact ⟨_, parseTree_iff.2 ⟨[.var "S", .term "a"], _, by decide, rfl,
      Forest.var h3 h4 (.term (LawfulTerminalEq.refl "a") .nil)⟩⟩

end Pango.Props
