import Verif.Spec.Places
import Verif.Props.Words

/-!
# C133: words with a choice of characters in each place
-/

namespace Pango.Props

open Pango Pango.Regex Pango.Fsm Pango.Lex Pango.Spec

private theorem scan_quoted_more (p : Profile) (w rest : List Char) :
    (scan p (quoted w ++ rest)).kinds = w.map .mtch ++ (scan p rest).kinds ∧
    (scan p (quoted w ++ rest)).stop = (scan p rest).stop := by
  induction w with
  | nil => exact ⟨rfl, rfl⟩
  | cons c w ih =>
    simp only [quoted]
    split
    · rename_i hc
      obtain ⟨h1, h2⟩ := scan_token (quoted_token p hc (quoted w ++ rest))
      rw [List.cons_append, List.cons_append, h1, h2]
      exact ⟨by rw [ih.1]; rfl, ih.2⟩
    · rename_i hc
      obtain ⟨h1, h2⟩ := scan_token (plain_token p hc (quoted w ++ rest))
      rw [List.cons_append, h1, h2]
      exact ⟨by rw [ih.1]; rfl, ih.2⟩

private def placeLit (p : Place) : Lit := .group p.except (p.chars.map .mtch)

private def placeKinds (p : Place) : List TokenKind :=
  .operator .leftBracket :: ((if p.except then [.operator .carret] else []) ++ p.chars.map .mtch ++ [.operator .rightBracket])

private theorem scan_place (pr : Profile) (p : Place) (rest : List Char) :
    (scan pr (p.text ++ rest)).kinds = placeKinds p ++ (scan pr rest).kinds ∧
    (scan pr (p.text ++ rest)).stop = (scan pr rest).stop := by
  have open_ : ∀ r, tokenKindL pr '[' r = .ok (.operator .leftBracket, ⟨r, false⟩) := fun r => rfl
  have close : ∀ r, tokenKindL pr ']' r = .ok (.operator .rightBracket, ⟨r, false⟩) := fun r => rfl
  have caret : ∀ r, tokenKindL pr '^' r = .ok (.operator .carret, ⟨r, false⟩) := fun r => rfl
  obtain ⟨q1, q2⟩ := scan_quoted_more pr p.chars (']' :: rest)
  obtain ⟨c1, c2⟩ := scan_token (close rest)
  cases hp : p.except with
  | false =>
    simp only [Place.text, placeKinds, hp, Bool.false_eq_true, if_false, List.nil_append, List.append_assoc, List.cons_append,
      List.append_nil]
    obtain ⟨o1, o2⟩ := scan_token (open_ (quoted p.chars ++ ']' :: rest))
    rw [o1, o2]
    simp only
    rw [q1, q2, c1, c2]
    exact ⟨rfl, rfl⟩
  | true =>
    simp only [Place.text, placeKinds, hp, if_true, List.nil_append, List.append_assoc, List.cons_append,
      List.append_nil]
    obtain ⟨o1, o2⟩ := scan_token (open_ ('^' :: (quoted p.chars ++ ']' :: rest)))
    obtain ⟨k1, k2⟩ := scan_token (caret (quoted p.chars ++ ']' :: rest))
    rw [o1, o2]
    simp only
    rw [k1, k2]
    simp only
    rw [q1, q2, c1, c2]
    exact ⟨rfl, rfl⟩

private theorem scan_places (pr : Profile) (ps : List Place) :
    (scan pr (placesText ps)).kinds = ps.flatMap placeKinds ∧ (scan pr (placesText ps)).stop = .eof := by
  induction ps with
  | nil => exact ⟨rfl, rfl⟩
  | cons p ps ih =>
    obtain ⟨h1, h2⟩ := scan_place pr p (placesText ps)
    simp only [placesText, List.flatMap_cons] at h1 h2 ih ⊢
    rw [h1, h2, ih.1]
    exact ⟨rfl, ih.2⟩

private theorem chars_syntax (l : List Char) : GroupItems ⟨false, true⟩ (l.map .mtch) (l.map .mtch) := by
  induction l with
  | nil => exact .none rfl
  | cons c l ih => exact .more (ks := [.mtch c]) (.chr c) ih

private theorem place_syntax (p : Place) : SubExpressionItem ⟨false, true⟩ (.lit (placeLit p) none) (placeKinds p) := by
  have h : MatchItem ⟨false, true⟩ (placeLit p) (placeKinds p) := by
    unfold placeLit placeKinds
    cases p.except with
    | false => exact .group (chars_syntax _)
    | true => exact .negated (chars_syntax _)
  simpa using SubExpressionItem.mtch h .none

private theorem places_syntax : ∀ {ps : List Place}, ps ≠ [] →
    SubExpression ⟨false, true⟩ (ps.map fun p => .lit (placeLit p) none) (ps.flatMap placeKinds)
  | [p], _ => by simpa using SubExpression.one (place_syntax p)
  | p :: q :: ps, _ => .more (place_syntax p) (places_syntax (ps := q :: ps) (by simp))

/-- The tree of the pattern. -/
private def placesTree (ps : List Place) : Expr := seqTree (ps.map fun p => .lit (placeLit p) none)

private theorem parse_places (pr : Profile) {ps : List Place} (hp : ps ≠ []) :
    parse pr (placesText ps) = .ok (.ok (placesTree ps)) :=
  parse_of_kinds (b := true) (.sub (places_syntax hp)) (scan_places pr ps).1 (scan_places pr ps).2

private theorem seqTree_cases (es : List Expr) : (∃ e, es = [e] ∧ seqTree es = e) ∨ seqTree es = .concat es := by
  match es with
  | [] => exact .inr rfl
  | [e] => exact .inl ⟨e, rfl, rfl⟩
  | _ :: _ :: _ => exact .inr rfl

private theorem places_noEmptySeq {ps : List Place} (hp : ps ≠ []) : ¬ HasEmptySeq (placesTree ps) := by
  have key : ∀ ps : List Place, ¬ AnyEmptySeq (ps.map fun p => .lit (placeLit p) none) := by
    intro ps
    induction ps with
    | nil => simp [AnyEmptySeq]
    | cons c ps ih => simp [AnyEmptySeq, HasEmptySeq, ih]
  unfold placesTree
  rcases seqTree_cases (ps.map fun p => .lit (placeLit p) none) with ⟨e, h1, h2⟩ | h
  · rw [h2]
    obtain ⟨p, _, rfl⟩ := List.mem_map.1 (show e ∈ ps.map fun p => .lit (placeLit p) none by rw [h1]; simp)
    simp [HasEmptySeq]
  · rw [h]
    simp only [HasEmptySeq, List.map_eq_nil_iff, hp, false_or]
    exact key ps

variable [Unicode]

private theorem places_regular (ps : List Place) : RepeatsNonEmpty (placesTree ps) ∧ CountsAtStart (placesTree ps) := by
  have k1 : ∀ ps : List Place, RepeatsNonEmptyAll (ps.map fun p => .lit (placeLit p) none) := by
    intro ps
    induction ps with
    | nil => simp [RepeatsNonEmptyAll]
    | cons c ps ih => simp [RepeatsNonEmptyAll, RepeatsNonEmpty, ih]
  have k2 : ∀ ps : List Place, CountsAtStartSeq (ps.map fun p => .lit (placeLit p) none) := by
    intro ps
    induction ps with
    | nil => simp [CountsAtStartSeq]
    | cons c ps ih => simp [CountsAtStartSeq, CountsAtStart, ih]
  unfold placesTree
  rcases seqTree_cases (ps.map fun p => .lit (placeLit p) none) with ⟨e, h1, h2⟩ | h
  · rw [h2]
    obtain ⟨p, _, rfl⟩ := List.mem_map.1 (show e ∈ ps.map fun p => .lit (placeLit p) none by rw [h1]; simp)
    exact ⟨trivial, trivial⟩
  · rw [h]
    exact ⟨k1 ps, k2 ps⟩

private theorem litSet_place {p : Place} {c : Char} : LitSet (placeLit p) c ↔ p.allows c := by
  have h : (∃ i ∈ p.chars.map GLit.mtch, ItemSet i c) ↔ c ∈ p.chars := by
    constructor
    · rintro ⟨i, hi, h⟩
      obtain ⟨d, hd, rfl⟩ := List.mem_map.1 hi
      rw [show c = d from h]
      exact hd
    · intro h
      exact ⟨.mtch c, List.mem_map.2 ⟨c, h, rfl⟩, rfl⟩
  unfold placeLit Place.allows
  cases p.except with
  | false => simpa [LitSet] using h
  | true => simpa [LitSet] using not_congr h

private theorem matches_place {p : Place} {v : List Char} : Matches (.lit (placeLit p) none) v ↔ ∃ c, v = [c] ∧ p.allows c := by
  constructor
  · intro h
    cases h with
    | lit h1 h2 =>
      obtain ⟨c, rfl⟩ := List.length_eq_one_iff.1 (show v.length = 1 from h1)
      exact ⟨c, rfl, litSet_place.1 (h2 c (by simp))⟩
  · rintro ⟨c, rfl, h⟩
    exact .lit rfl fun d hd => by
      rw [List.mem_singleton.1 hd]
      exact litSet_place.2 h

private theorem matches_concat {ps : List Place} {v : List Char} :
    Matches (.concat (ps.map fun p => .lit (placeLit p) none)) v ↔ Fills v ps := by
  induction ps generalizing v with
  | nil =>
    constructor
    · intro h
      cases h
      trivial
    · intro h
      cases v with
      | nil => exact .nil
      | cons c v => exact absurd h (by simp [Fills])
  | cons p ps ih =>
    constructor
    · intro h
      cases h with
      | cons h1 h2 =>
        obtain ⟨c, rfl, h3⟩ := matches_place.1 h1
        exact ⟨h3, ih.1 h2⟩
    · intro h
      cases v with
      | nil => exact absurd h (by simp [Fills])
      | cons c v => exact .cons (u := [c]) (matches_place.2 ⟨c, rfl, h.1⟩) (ih.2 h.2)

private theorem matches_places {ps : List Place} {v : List Char} : Matches (placesTree ps) v ↔ Fills v ps := by
  unfold placesTree
  rcases seqTree_cases (ps.map fun p => .lit (placeLit p) none) with ⟨e, h1, h2⟩ | h
  · rw [h2]
    match ps, h1 with
    | [p], h1 =>
      simp only [List.map_cons, List.map_nil, List.cons.injEq, and_true] at h1
      subst h1
      rw [matches_place]
      constructor
      · rintro ⟨c, rfl, h⟩
        exact ⟨h, trivial⟩
      · intro h
        match v, h with
        | [c], h => exact ⟨c, rfl, h.1⟩
  · rw [h]
    exact matches_concat

/-- C133.  Whatever characters may, or may not, stand in each place: the pattern with a bracket for every place is accepted and
compiled, and it matches the words with such a character in every place and no others.  A bracket may be empty. -/
theorem c133_places (pr : Profile) (ps : List Place) (hp : ps ≠ []) :
    ∃ e nfa, parse pr (placesText ps) = .ok (.ok e) ∧ nfaOfAst e = .ok nfa ∧
      ∃ fuel, ∀ m, fuel ≤ m → ∀ v : List Char, ∃ b, nfa.simulate m v = .ok b ∧ (b = true ↔ Fills v ps) := by
  obtain ⟨nfa, h1, fuel, h2⟩ := c10_matches_partial (placesTree ps) (places_noEmptySeq hp) (places_regular ps).1
    (places_regular ps).2
  refine ⟨_, nfa, parse_places pr hp, h1, fuel, fun m hm v => ?_⟩
  obtain ⟨b, h3, h4⟩ := h2 m hm v
  exact ⟨b, h3, h4.trans matches_places⟩

omit [Unicode] in
private theorem lower_val (c : Char) : c.toLower.val.toNat =
    if 65 ≤ c.val.toNat ∧ c.val.toNat ≤ 90 then c.val.toNat + 32 else c.val.toNat := by
  have h1 : (c.val ≥ 'A'.val ∧ c.val ≤ 'Z'.val) ↔ 65 ≤ c.val.toNat ∧ c.val.toNat ≤ 90 := Iff.rfl
  unfold Char.toLower
  split
  · rename_i h
    rw [if_pos (h1.1 h)]
    have h : 65 ≤ c.toNat ∧ c.toNat ≤ 90 := h1.1 h
    show (c.val + 32).toNat = _
    rw [UInt32.toNat_add]
    simp
    omega
  · rename_i h
    rw [if_neg (fun h' => h (h1.2 h'))]

omit [Unicode] in
private theorem upper_val (c : Char) : c.toUpper.val.toNat =
    if 97 ≤ c.val.toNat ∧ c.val.toNat ≤ 122 then c.val.toNat - 32 else c.val.toNat := by
  have h1 : ('a'.val ≤ c.val ∧ c.val ≤ 'z'.val) ↔ 97 ≤ c.val.toNat ∧ c.val.toNat ≤ 122 := Iff.rfl
  unfold Char.toUpper
  split
  · rename_i h
    rw [if_pos (h1.1 h)]
    have h : 97 ≤ c.toNat ∧ c.toNat ≤ 122 := h1.1 h
    show (c.val + 4294967264).toNat = _
    rw [UInt32.toNat_add]
    simp
    omega
  · rename_i h
    rw [if_neg (fun h' => h (h1.2 h'))]

omit [Unicode] in
/-- The two ways to write a letter are those with the same small letter. -/
private theorem same_letter (c d : Char) : d ∈ [c.toLower, c.toUpper] ↔ d.toLower = c.toLower := by
  have ext : ∀ a b : Char, a = b ↔ a.val.toNat = b.val.toNat :=
    fun a b => ⟨fun h => h ▸ rfl, fun h => Char.ext (UInt32.toNat_inj.1 h)⟩
  simp only [List.mem_cons, List.not_mem_nil, or_false, ext, lower_val, upper_val]
  split <;> split <;> split <;> omega

omit [Unicode] in
private theorem fills_anyCase {w v : List Char} : Fills v (anyCase w) ↔ v.map Char.toLower = w.map Char.toLower := by
  induction w generalizing v with
  | nil => cases v <;> simp [anyCase, Fills]
  | cons c w ih =>
    cases v with
    | nil => simp [anyCase, Fills]
    | cons d v =>
      simp only [anyCase, List.map_cons, Fills, List.cons.injEq] at ih ⊢
      rw [ih]
      simp only [Place.allows, Bool.false_eq_true, if_false]
      rw [same_letter]

/-- A word can be written as a pattern that does not distinguish small and large letters. -/
theorem c133_anyCase (pr : Profile) (w : List Char) (hw : w ≠ []) :
    ∃ e nfa, parse pr (placesText (anyCase w)) = .ok (.ok e) ∧ nfaOfAst e = .ok nfa ∧
      ∃ fuel, ∀ m, fuel ≤ m → ∀ v : List Char, ∃ b, nfa.simulate m v = .ok b ∧
        (b = true ↔ v.map Char.toLower = w.map Char.toLower) := by
  obtain ⟨e, nfa, h1, h2, fuel, h3⟩ := c133_places pr (anyCase w) (by simpa [anyCase] using hw)
  refine ⟨e, nfa, h1, h2, fuel, fun m hm v => ?_⟩
  obtain ⟨b, h4, h5⟩ := h3 m hm v
  exact ⟨b, h4, h5.trans fills_anyCase⟩

/-- Rules with such patterns make a lexer. -/
theorem c133_builds {K : Type} (pr : Profile) (rules : List (List Place × (List Char → K))) (h : ∀ r ∈ rules, r.1 ≠ []) :
    ∃ l, buildLexer pr (rules.map fun r => (placesText r.1, r.2)) = .ok (.ok l) := by
  refine (c55_partial pr _).2.1 fun r hr => ?_
  obtain ⟨k, hk, rfl⟩ := List.mem_map.1 hr
  exact ⟨_, parse_places pr (h k hk), places_noEmptySeq (h k hk)⟩

omit [Unicode] in
/-- The patterns of `if-1` and of a quote followed by anything but a quote or a backslash. -/
example : placesText (anyCase "if-1".toList) = "[iI][fF][\\-\\-][11]".toList ∧
    placesText [⟨false, ['"']⟩, ⟨true, ['"', '\\']⟩] = "[\"][^\"\\\\]".toList := by decide +kernel

omit [Unicode] in
example : Fills "\"a".toList [⟨false, ['"']⟩, ⟨true, ['"', '\\']⟩] ∧ ¬ Fills "\"\\".toList [⟨false, ['"']⟩, ⟨true, ['"', '\\']⟩] := by
  simp [Fills, Place.allows]

end Pango.Props
