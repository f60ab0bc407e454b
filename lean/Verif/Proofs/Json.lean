import Verif.Spec.Json
import Verif.Proofs.ContextFree

/-!
# The sentences of the grammar for data in the style of JSON
-/

namespace Pango.Spec

open Pango.Parse

theorem itemTokens_eq (js : List Json) : itemTokens js = js.map Json.tokens := by
  induction js with
  | nil => simp [itemTokens]
  | cons j js ih => simp [itemTokens, ih]

theorem itemTrees_eq (js : List Json) : itemTrees js = js.map Json.tree := by
  induction js with
  | nil => simp [itemTrees]
  | cons j js ih => simp [itemTrees, ih]

/-- The tokens of a field. -/
def tokensOfField (f : List Char × Json) : List JsonTok := .str f.1 :: .colon :: f.2.tokens

/-- The tree of a field. -/
def treeOfField (f : List Char × Json) : Node JsonVar JsonTok :=
  .mk (.var .member) [f.2.tree, leaf .colon, leaf (.str f.1)]

theorem fieldTokens_eq (fs : List (List Char × Json)) : fieldTokens fs = fs.map tokensOfField := by
  induction fs with
  | nil => simp [fieldTokens]
  | cons f fs ih => simp [fieldTokens, tokensOfField, ih]

theorem fieldTrees_eq (fs : List (List Char × Json)) : fieldTrees fs = fs.map treeOfField := by
  induction fs with
  | nil => simp [fieldTrees]
  | cons f fs ih => simp [fieldTrees, treeOfField, ih]

theorem withCommas_append {ws : List (List JsonTok)} (h : ws ≠ []) (w : List JsonTok) :
    withCommas (ws ++ [w]) = withCommas ws ++ .comma :: w := by
  induction ws with
  | nil => exact absurd rfl h
  | cons u ws ih =>
    cases ws with
    | nil => simp [withCommas]
    | cons v ws =>
      have h1 : withCommas (u :: v :: (ws ++ [w])) = u ++ .comma :: withCommas (v :: (ws ++ [w])) := rfl
      have h2 : withCommas (u :: v :: ws) = u ++ .comma :: withCommas (v :: ws) := rfl
      have := ih (by simp)
      simp only [List.cons_append] at this ⊢
      rw [h1, this, h2, List.append_assoc, List.cons_append]

theorem commaTree_append {v : JsonVar} {ns : List (Node JsonVar JsonTok)} {m : Node JsonVar JsonTok}
    (h : commaTree v ns = [m]) (n : Node JsonVar JsonTok) :
    commaTree v (ns ++ [n]) = [.mk (.var v) [n, leaf .comma, m]] := by
  cases ns with
  | nil => cases h
  | cons k ns =>
    simp only [commaTree, List.cons.injEq, and_true] at h
    simp [commaTree, h]

/-! ## Sentences are data -/

/-- What is derived from a variable. -/
def Means : JsonVar → Node JsonVar JsonTok → List JsonTok → Prop
  | .value, n, w => ∃ j : Json, n = j.tree ∧ w = j.tokens
  | .items, n, w => ∃ js : List Json, js ≠ [] ∧ commaTree .items (js.map Json.tree) = [n] ∧
      w = withCommas (js.map Json.tokens)
  | .rest, n, w => ∃ js : List Json, n = .mk (.var .rest) (leaf .rightBracket :: commaTree .items (js.map Json.tree)) ∧
      w = withCommas (js.map Json.tokens) ++ [.rightBracket]
  | .member, n, w => ∃ f, n = treeOfField f ∧ w = tokensOfField f
  | .members, n, w => ∃ fs : List (List Char × Json), fs ≠ [] ∧ commaTree .members (fs.map treeOfField) = [n] ∧
      w = withCommas (fs.map tokensOfField)
  | .fields, n, w => ∃ fs : List (List Char × Json),
      n = .mk (.var .fields) (leaf .rightBrace :: commaTree .members (fs.map treeOfField)) ∧
      w = withCommas (fs.map tokensOfField) ++ [.rightBrace]
  | .document, _, _ => True

/-- What is derived from symbols. -/
def AllMean : List (Sym JsonVar JsonTok) → List (Node JsonVar JsonTok) → List JsonTok → Prop
  | [], ns, w => ns = [] ∧ w = []
  | .eps :: α, ns, w => AllMean α ns w
  | .term t :: α, ns, w => ∃ u ns' w', ns = leaf u :: ns' ∧ w = u :: w' ∧ teq t u = true ∧ AllMean α ns' w'
  | .var v :: α, ns, w => ∃ n ns' x w', ns = n :: ns' ∧ w = x ++ w' ∧ Means v n x ∧ AllMean α ns' w'

private theorem same_eq {t u : JsonTok} (h : teq t u = true) (h1 : ∀ z, t ≠ .num z) (h2 : ∀ s, t ≠ .str s) : u = t := by
  simp only [teq] at h
  unfold JsonTok.same at h
  split at h
  · exact absurd rfl (h1 _)
  · exact absurd rfl (h2 _)
  · simpa [eq_comm] using h

private theorem same_num {z : Int} {u : JsonTok} (h : teq (JsonTok.num z) u = true) : ∃ z', u = .num z' := by
  simp only [teq] at h
  cases u <;> simp [JsonTok.same] at h ⊢

private theorem same_str {s : List Char} {u : JsonTok} (h : teq (JsonTok.str s) u = true) : ∃ s', u = .str s' := by
  simp only [teq] at h
  cases u <;> simp [JsonTok.same] at h ⊢

private theorem means_rule {v : JsonVar} {β : Body JsonVar JsonTok} (h : (v, β) ∈ jsonGrammar.rules)
    {cs : List (Node JsonVar JsonTok)} {w : List JsonTok} (hm : AllMean β cs w) :
    Means v (.mk (.var v) cs.reverse) w := by
  simp only [jsonGrammar, List.mem_cons, Prod.mk.injEq, List.not_mem_nil, or_false] at h
  rcases h with ⟨rfl, rfl⟩ | ⟨rfl, rfl⟩ | ⟨rfl, rfl⟩ | ⟨rfl, rfl⟩ | ⟨rfl, rfl⟩ | ⟨rfl, rfl⟩ | ⟨rfl, rfl⟩ | ⟨rfl, rfl⟩ |
    ⟨rfl, rfl⟩ | ⟨rfl, rfl⟩ | ⟨rfl, rfl⟩ | ⟨rfl, rfl⟩ | ⟨rfl, rfl⟩ | ⟨rfl, rfl⟩ | ⟨rfl, rfl⟩ | ⟨rfl, rfl⟩
  · obtain ⟨u, _, _, rfl, rfl, h, rfl, rfl⟩ := hm
    rw [same_eq h nofun nofun]
    exact ⟨.null, by simp [Json.tree], by simp [Json.tokens]⟩
  · obtain ⟨u, _, _, rfl, rfl, h, rfl, rfl⟩ := hm
    rw [same_eq h nofun nofun]
    exact ⟨.bool true, by simp [Json.tree], by simp [Json.tokens]⟩
  · obtain ⟨u, _, _, rfl, rfl, h, rfl, rfl⟩ := hm
    rw [same_eq h nofun nofun]
    exact ⟨.bool false, by simp [Json.tree], by simp [Json.tokens]⟩
  · obtain ⟨u, _, _, rfl, rfl, h, rfl, rfl⟩ := hm
    obtain ⟨z, rfl⟩ := same_num h
    exact ⟨.num z, by simp [Json.tree], by simp [Json.tokens]⟩
  · obtain ⟨u, _, _, rfl, rfl, h, rfl, rfl⟩ := hm
    obtain ⟨s, rfl⟩ := same_str h
    exact ⟨.str s, by simp [Json.tree], by simp [Json.tokens]⟩
  · obtain ⟨u, _, _, rfl, rfl, h, n, _, x, _, rfl, rfl, ⟨js, rfl, rfl⟩, rfl, rfl⟩ := hm
    rw [same_eq h nofun nofun]
    exact ⟨.arr js, by simp [Json.tree, itemTrees_eq], by simp [Json.tokens, itemTokens_eq]⟩
  · obtain ⟨u, _, _, rfl, rfl, h, n, _, x, _, rfl, rfl, ⟨fs, rfl, rfl⟩, rfl, rfl⟩ := hm
    rw [same_eq h nofun nofun]
    exact ⟨.obj fs, by simp [Json.tree, fieldTrees_eq], by simp [Json.tokens, fieldTokens_eq]⟩
  · obtain ⟨u, _, _, rfl, rfl, h, rfl, rfl⟩ := hm
    rw [same_eq h nofun nofun]
    exact ⟨[], by simp [commaTree], by simp [withCommas]⟩
  · obtain ⟨n, _, x, _, rfl, rfl, ⟨js, h1, h2, rfl⟩, u, _, _, rfl, rfl, h, rfl, rfl⟩ := hm
    rw [same_eq h nofun nofun]
    exact ⟨js, by simp [h2], rfl⟩
  · obtain ⟨n, _, x, _, rfl, rfl, ⟨j, rfl, rfl⟩, rfl, rfl⟩ := hm
    exact ⟨[j], by simp, by simp [commaTree], by simp [withCommas]⟩
  · obtain ⟨n, _, x, _, rfl, rfl, ⟨js, h1, h2, rfl⟩, u, _, _, rfl, rfl, h, m, _, y, _, rfl, rfl, ⟨j, rfl, rfl⟩, rfl, rfl⟩ := hm
    rw [same_eq h nofun nofun]
    refine ⟨js ++ [j], by simp, ?_, ?_⟩
    · rw [List.map_append, List.map_singleton, commaTree_append h2]
      simp
    · rw [List.map_append, List.map_singleton, withCommas_append (by simpa using h1)]
      simp
  · obtain ⟨u, _, _, rfl, rfl, h, rfl, rfl⟩ := hm
    rw [same_eq h nofun nofun]
    exact ⟨[], by simp [commaTree], by simp [withCommas]⟩
  · obtain ⟨n, _, x, _, rfl, rfl, ⟨fs, h1, h2, rfl⟩, u, _, _, rfl, rfl, h, rfl, rfl⟩ := hm
    rw [same_eq h nofun nofun]
    exact ⟨fs, by simp [h2], rfl⟩
  · obtain ⟨n, _, x, _, rfl, rfl, ⟨f, rfl, rfl⟩, rfl, rfl⟩ := hm
    exact ⟨[f], by simp, by simp [commaTree], by simp [withCommas]⟩
  · obtain ⟨n, _, x, _, rfl, rfl, ⟨fs, h1, h2, rfl⟩, u, _, _, rfl, rfl, h, m, _, y, _, rfl, rfl, ⟨f, rfl, rfl⟩, rfl, rfl⟩ := hm
    rw [same_eq h nofun nofun]
    refine ⟨fs ++ [f], by simp, ?_, ?_⟩
    · rw [List.map_append, List.map_singleton, commaTree_append h2]
      simp
    · rw [List.map_append, List.map_singleton, withCommas_append (by simpa using h1)]
      simp
  · obtain ⟨u, _, _, rfl, rfl, h, u', _, _, rfl, rfl, h', n, _, x, _, rfl, rfl, ⟨j, rfl, rfl⟩, rfl, rfl⟩ := hm
    rw [same_eq h' nofun nofun]
    obtain ⟨s, rfl⟩ := same_str h
    exact ⟨(s, j), by simp [treeOfField], by simp [tokensOfField]⟩

private theorem forest_means {α : List (Sym JsonVar JsonTok)} {ns : List (Node JsonVar JsonTok)} {w : List JsonTok}
    (h : Forest jsonGrammar α ns w) : AllMean α ns w := by
  induction h with
  | nil => exact ⟨rfl, rfl⟩
  | eps _ ih => exact ih
  | term h1 _ ih => exact ⟨_, _, _, rfl, rfl, h1, ih⟩
  | var h1 _ _ ih1 ih2 => exact ⟨_, _, _, _, rfl, rfl, means_rule h1 ih1, ih2⟩

/-! ## Data is a sentence -/

private theorem var_forest {v : JsonVar} {β : Body JsonVar JsonTok} (h : (v, β) ∈ jsonGrammar.rules)
    {cs : List (Node JsonVar JsonTok)} {w : List JsonTok} (hf : Forest jsonGrammar β cs w) :
    Forest jsonGrammar [.var v] [.mk (.var v) cs.reverse] w := by
  simpa using Forest.var h hf .nil

private theorem comma_forest {v e : JsonVar} (h1 : (v, [.var e]) ∈ jsonGrammar.rules)
    (h2 : (v, [.var v, .term .comma, .var e]) ∈ jsonGrammar.rules) {X : Type} {tree : X → Node JsonVar JsonTok}
    {tokens : X → List JsonTok} (xs : List X) :
    (∀ x ∈ xs, Forest jsonGrammar [.var e] [tree x] (tokens x)) → xs ≠ [] →
    ∃ n, commaTree v (xs.map tree) = [n] ∧ Forest jsonGrammar [.var v] [n] (withCommas (xs.map tokens)) := by
  induction xs using List.reverseRecOn with
  | nil => exact fun _ h => absurd rfl h
  | append_singleton xs x ih =>
    intro h _
    have hx := h x (by simp)
    by_cases hne : xs = []
    · subst hne
      exact ⟨_, rfl, by simpa [withCommas] using var_forest h1 hx⟩
    · obtain ⟨m, h3, h4⟩ := ih (fun x hx => h x (by simp [hx])) hne
      rw [List.map_append, List.map_singleton, commaTree_append h3, List.map_append, List.map_singleton,
        withCommas_append (by simpa using hne)]
      refine ⟨_, rfl, ?_⟩
      have h5 : Forest jsonGrammar [.term .comma, .var e] [leaf .comma, tree x] (.comma :: tokens x) :=
        .term (by decide) hx
      exact var_forest h2 (forest_append h4 h5)

mutual
private theorem value_forest : ∀ j : Json, Forest jsonGrammar [.var .value] [j.tree] j.tokens
  | .null => by
    rw [Json.tree, Json.tokens]
    exact var_forest (β := [.term .null]) (by simp [jsonGrammar]) (.term (by decide) .nil)
  | .bool true => by
    rw [Json.tree, Json.tokens]
    exact var_forest (β := [.term (.bool true)]) (by simp [jsonGrammar]) (.term (by decide) .nil)
  | .bool false => by
    rw [Json.tree, Json.tokens]
    exact var_forest (β := [.term (.bool false)]) (by simp [jsonGrammar]) (.term (by decide) .nil)
  | .num z => by
    rw [Json.tree, Json.tokens]
    exact var_forest (β := [.term (.num 0)]) (by simp [jsonGrammar]) (.term (by rfl) .nil)
  | .str s => by
    rw [Json.tree, Json.tokens]
    exact var_forest (β := [.term (.str [])]) (by simp [jsonGrammar]) (.term (by rfl) .nil)
  | .arr js => by
    have h := items_forest js
    rw [Json.tree, Json.tokens, itemTrees_eq, itemTokens_eq]
    have h1 : Forest jsonGrammar [.var .rest] [.mk (.var .rest) (leaf .rightBracket :: commaTree .items (js.map Json.tree))]
        (withCommas (js.map Json.tokens) ++ [.rightBracket]) := by
      by_cases hne : js = []
      · subst hne
        exact var_forest (β := [.term .rightBracket]) (by simp [jsonGrammar]) (.term (by decide) .nil)
      · obtain ⟨n, h2, h3⟩ := comma_forest (v := .items) (e := .value) (by simp [jsonGrammar]) (by simp [jsonGrammar]) js
          h hne
        rw [h2]
        exact var_forest (β := [.var .items, .term .rightBracket]) (by simp [jsonGrammar])
          (forest_append h3 (.term (by decide) .nil))
    exact var_forest (β := [.term .leftBracket, .var .rest]) (by simp [jsonGrammar]) (.term (by decide) h1)
  | .obj fs => by
    have h := fields_forest fs
    rw [Json.tree, Json.tokens, fieldTrees_eq, fieldTokens_eq]
    have h1 : Forest jsonGrammar [.var .fields]
        [.mk (.var .fields) (leaf .rightBrace :: commaTree .members (fs.map treeOfField))]
        (withCommas (fs.map tokensOfField) ++ [.rightBrace]) := by
      by_cases hne : fs = []
      · subst hne
        exact var_forest (β := [.term .rightBrace]) (by simp [jsonGrammar]) (.term (by decide) .nil)
      · obtain ⟨n, h2, h3⟩ := comma_forest (v := .members) (e := .member) (by simp [jsonGrammar]) (by simp [jsonGrammar])
          fs h hne
        rw [h2]
        exact var_forest (β := [.var .members, .term .rightBrace]) (by simp [jsonGrammar])
          (forest_append h3 (.term (by decide) .nil))
    exact var_forest (β := [.term .leftBrace, .var .fields]) (by simp [jsonGrammar]) (.term (by decide) h1)

private theorem items_forest : ∀ js : List Json, ∀ j ∈ js, Forest jsonGrammar [.var .value] [j.tree] j.tokens
  | [], _, h => absurd h (by simp)
  | j :: js, k, h => by
    rcases List.mem_cons.1 h with h | h
    · rw [h]
      exact value_forest j
    · exact items_forest js k h

private theorem fields_forest : ∀ fs : List (List Char × Json), ∀ f ∈ fs,
    Forest jsonGrammar [.var .member] [treeOfField f] (tokensOfField f)
  | [], _, h => absurd h (by simp)
  | (s, j) :: fs, f, h => by
    rcases List.mem_cons.1 h with h | h
    · rw [h]
      exact var_forest (β := [.term (.str []), .term .colon, .var .value]) (by simp [jsonGrammar])
        (.term (by rfl) (.term (by decide) (value_forest j)))
    · exact fields_forest fs f h
end

/-- The parse trees are those of data. -/
theorem json_tree {n : Node JsonVar JsonTok} {w : List JsonTok} :
    ParseTree jsonGrammar n w ↔ ∃ j : Json, n = j.tree ∧ w = j.tokens := by
  constructor
  · intro h
    obtain ⟨m, _, x, _, h1, rfl, ⟨j, rfl, rfl⟩, rfl, rfl⟩ := forest_means h
    cases h1
    exact ⟨j, rfl, by simp⟩
  · rintro ⟨j, rfl, rfl⟩
    exact value_forest j

end Pango.Spec
