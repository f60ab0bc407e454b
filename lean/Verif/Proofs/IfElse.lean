import Verif.Spec.IfElse
import Verif.Proofs.Sound

/-!
# The parse trees of statements with `if` and `else`
-/

namespace Pango.Spec

open Pango.Parse

/-! ## Every parse tree is that of a statement -/

/-- What the trees of a variable stand for. -/
private def Means : IfVar → Node IfVar IfTok → List IfTok → Prop
  | .stmt, n, w => ∃ s : IfStmt, s.Nearest ∧ n = .mk (.var .stmt) [s.tree] ∧ w = s.tokens
  | .matched, n, w => ∃ s : IfStmt, s.Nearest ∧ s.full = true ∧ n = s.tree ∧ w = s.tokens
  | .unmatched, n, w => ∃ s : IfStmt, s.Nearest ∧ s.full = false ∧ n = s.tree ∧ w = s.tokens
  | .cond, n, w => ∃ c, n = .mk (.var .cond) [.mk (.term (.cond c)) []] ∧ w = [.cond c]
  | .els, n, w => n = .mk (.var .els) [.mk (.term .els) []] ∧ w = [.els]
  | .program, _, _ => False

private def AllMean : List (Sym IfVar IfTok) → List (Node IfVar IfTok) → List IfTok → Prop
  | [], ns, w => ns = [] ∧ w = []
  | .eps :: α, ns, w => AllMean α ns w
  | .term t :: α, ns, w => ∃ u ns' w', ns = .mk (.term u) [] :: ns' ∧ w = u :: w' ∧ teq t u = true ∧ AllMean α ns' w'
  | .var v :: α, ns, w => ∃ n ns' x w', ns = n :: ns' ∧ w = x ++ w' ∧ Means v n x ∧ AllMean α ns' w'

private theorem means_rule {v : IfVar} {β : Body IfVar IfTok} (h : (v, β) ∈ ifGrammar.rules)
    {cs : List (Node IfVar IfTok)} {w : List IfTok} (hm : AllMean β cs w) :
    Means v (.mk (.var v) cs.reverse) w := by
  simp only [ifGrammar, List.mem_cons, Prod.mk.injEq, List.not_mem_nil, or_false] at h
  rcases h with ⟨rfl, rfl⟩ | ⟨rfl, rfl⟩ | ⟨rfl, rfl⟩ | ⟨rfl, rfl⟩ | ⟨rfl, rfl⟩ | ⟨rfl, rfl⟩ | ⟨rfl, rfl⟩ | ⟨rfl, rfl⟩
  · obtain ⟨n, _, x, _, rfl, rfl, ⟨s, h1, h2, rfl, rfl⟩, rfl, rfl⟩ := hm
    exact ⟨s, h1, rfl, by simp⟩
  · obtain ⟨n, _, x, _, rfl, rfl, ⟨s, h1, h2, rfl, rfl⟩, rfl, rfl⟩ := hm
    exact ⟨s, h1, rfl, by simp⟩
  · obtain ⟨u, _, _, rfl, rfl, h, rfl, rfl⟩ := hm
    cases u <;> simp [teq, IfTok.same] at h
    exact ⟨.simple _, trivial, rfl, rfl, rfl⟩
  · obtain ⟨_, _, _, _, rfl, rfl, ⟨c, rfl, rfl⟩, _, _, _, _, rfl, rfl, ⟨a, h1, h2, rfl, rfl⟩, _, _, _, _, rfl, rfl,
      ⟨rfl, rfl⟩, _, _, _, _, rfl, rfl, ⟨b, h3, h4, rfl, rfl⟩, rfl, rfl⟩ := hm
    exact ⟨.ifElse c a b, ⟨h2, h1, h3⟩, by simp [IfStmt.full, h2, h4], by simp [IfStmt.tree, h4], by simp [IfStmt.tokens]⟩
  · obtain ⟨_, _, _, _, rfl, rfl, ⟨c, rfl, rfl⟩, _, _, _, _, rfl, rfl, ⟨a, h1, rfl, rfl⟩, rfl, rfl⟩ := hm
    exact ⟨.ifThen c a, h1, rfl, by simp [IfStmt.tree], by simp [IfStmt.tokens]⟩
  · obtain ⟨_, _, _, _, rfl, rfl, ⟨c, rfl, rfl⟩, _, _, _, _, rfl, rfl, ⟨a, h1, h2, rfl, rfl⟩, _, _, _, _, rfl, rfl,
      ⟨rfl, rfl⟩, _, _, _, _, rfl, rfl, ⟨b, h3, h4, rfl, rfl⟩, rfl, rfl⟩ := hm
    exact ⟨.ifElse c a b, ⟨h2, h1, h3⟩, by simp [IfStmt.full, h4], by simp [IfStmt.tree, h4], by simp [IfStmt.tokens]⟩
  · obtain ⟨u, _, _, rfl, rfl, h, rfl, rfl⟩ := hm
    cases u <;> simp [teq, IfTok.same] at h
    exact ⟨_, rfl, rfl⟩
  · obtain ⟨u, _, _, rfl, rfl, h, rfl, rfl⟩ := hm
    cases u <;> simp [teq, IfTok.same] at h
    exact ⟨rfl, rfl⟩

private theorem forest_means {α : List (Sym IfVar IfTok)} {ns : List (Node IfVar IfTok)} {w : List IfTok}
    (h : Forest ifGrammar α ns w) : AllMean α ns w := by
  induction h with
  | nil => exact ⟨rfl, rfl⟩
  | eps _ ih => exact ih
  | term h1 _ ih => exact ⟨_, _, _, rfl, rfl, h1, ih⟩
  | var h1 _ _ ih1 ih2 => exact ⟨_, _, _, _, rfl, rfl, means_rule h1 ih1, ih2⟩

/-! ## Every statement has a parse tree -/

private theorem var_forest {v : IfVar} {β : Body IfVar IfTok} (h : (v, β) ∈ ifGrammar.rules)
    {cs : List (Node IfVar IfTok)} {w : List IfTok} (hf : Forest ifGrammar β cs w) :
    Forest ifGrammar [.var v] [.mk (.var v) cs.reverse] w := by
  simpa using Forest.var h hf .nil

private theorem cond_forest (c : String) :
    Forest ifGrammar [.var .cond] [.mk (.var .cond) [.mk (.term (.cond c)) []]] [.cond c] :=
  var_forest (β := [.term (.cond "")]) (by simp [ifGrammar]) (.term rfl .nil)

private theorem els_forest : Forest ifGrammar [.var .els] [.mk (.var .els) [.mk (.term .els) []]] [.els] :=
  var_forest (β := [.term .els]) (by simp [ifGrammar]) (.term rfl .nil)

private def kindOf (s : IfStmt) : IfVar := if s.full then .matched else .unmatched

private theorem stmt_of {s : IfStmt} (h : Forest ifGrammar [.var (kindOf s)] [s.tree] s.tokens) :
    Forest ifGrammar [.var .stmt] [.mk (.var .stmt) [s.tree]] s.tokens := by
  unfold kindOf at h
  split at h
  · exact var_forest (β := [.var .matched]) (by simp [ifGrammar]) h
  · exact var_forest (β := [.var .unmatched]) (by simp [ifGrammar]) h

private theorem tree_forest (s : IfStmt) : s.Nearest → Forest ifGrammar [.var (kindOf s)] [s.tree] s.tokens := by
  induction s with
  | simple s =>
    intro _
    exact var_forest (β := [.term (.simple "")]) (by simp [ifGrammar, kindOf, IfStmt.full]) (.term rfl .nil)
  | ifThen c a ih =>
    intro h
    exact var_forest (v := .unmatched) (β := [.var .cond] ++ [.var .stmt]) (by simp [ifGrammar])
      (forest_append (cond_forest c) (stmt_of (ih h)))
  | ifElse c a b iha ihb =>
    rintro ⟨h1, h2, h3⟩
    have ha := iha h2
    have hb := ihb h3
    rw [kindOf, h1, if_pos rfl] at ha
    have key := forest_append (cond_forest c) (forest_append ha (forest_append els_forest hb))
    have hk : kindOf (.ifElse c a b) = kindOf b := by simp [kindOf, IfStmt.full, h1]
    have hr : (kindOf b, [.var .cond] ++ ([.var .matched] ++ ([.var .els] ++ [.var (kindOf b)]))) ∈ ifGrammar.rules := by
      unfold kindOf
      split <;> simp [ifGrammar]
    have := var_forest hr key
    rw [hk]
    simpa [IfStmt.tree, IfStmt.tokens, kindOf] using this

/-- The parse trees are those of the statements in which every `else` belongs to the nearest `if`. -/
theorem if_tree {n : Node IfVar IfTok} {w : List IfTok} :
    ParseTree ifGrammar n w ↔ ∃ s : IfStmt, s.Nearest ∧ n = .mk (.var .stmt) [s.tree] ∧ w = s.tokens := by
  constructor
  · intro h
    obtain ⟨m, _, x, _, h1, rfl, ⟨s, h2, rfl, rfl⟩, rfl, rfl⟩ := forest_means h
    cases h1
    exact ⟨s, h2, rfl, by simp⟩
  · rintro ⟨s, h, rfl, rfl⟩
    exact stmt_of (tree_forest s h)

theorem IfStmt.tree_inj : ∀ s t : IfStmt, s.tree = t.tree → s = t := by
  intro s
  induction s with
  | simple s =>
    intro t h
    cases t <;> simp [IfStmt.tree] at h
    rw [h]
  | ifThen c a ih =>
    intro t h
    cases t <;> simp [IfStmt.tree] at h
    rw [h.2, ih _ h.1]
  | ifElse c a b iha ihb =>
    intro t h
    cases t <;> simp [IfStmt.tree] at h
    rw [h.2.2.2, iha _ h.2.2.1, ihb _ h.2.1]

/-! ## Every text of a statement is one with the nearest `if`s -/

/-- An `else` can be put behind a statement that has an `if` without one. -/
private theorem attach {b : IfStmt} (hb : b.Nearest) (a : IfStmt) : a.Nearest → a.full = false →
    ∃ a' : IfStmt, a'.Nearest ∧ a'.tokens = a.tokens ++ .els :: b.tokens := by
  induction a with
  | simple s => intro _ h; cases h
  | ifThen c x ih =>
    intro h _
    cases hx : x.full with
    | true => exact ⟨.ifElse c x b, ⟨hx, h, hb⟩, by simp [IfStmt.tokens]⟩
    | false =>
      obtain ⟨x', h1, h2⟩ := ih h hx
      exact ⟨.ifThen c x', h1, by simp [IfStmt.tokens, h2]⟩
  | ifElse c x y _ ihy =>
    rintro ⟨h1, h2, h3⟩ hf
    obtain ⟨y', h4, h5⟩ := ihy h3 (by simpa [IfStmt.full, h1] using hf)
    exact ⟨.ifElse c x y', ⟨h1, h2, h4⟩, by simp [IfStmt.tokens, h5]⟩

theorem exists_nearest (s : IfStmt) : ∃ s' : IfStmt, s'.Nearest ∧ s'.tokens = s.tokens := by
  induction s with
  | simple s => exact ⟨.simple s, trivial, rfl⟩
  | ifThen c a ih =>
    obtain ⟨a', h1, h2⟩ := ih
    exact ⟨.ifThen c a', h1, by simp [IfStmt.tokens, h2]⟩
  | ifElse c a b iha ihb =>
    obtain ⟨a', h1, h2⟩ := iha
    obtain ⟨b', h3, h4⟩ := ihb
    cases ha : a'.full with
    | true => exact ⟨.ifElse c a' b', ⟨ha, h1, h3⟩, by simp [IfStmt.tokens, h2, h4]⟩
    | false =>
      obtain ⟨x, h5, h6⟩ := attach h3 a' h1 ha
      exact ⟨.ifThen c x, h5, by simp [IfStmt.tokens, h6, h2, h4]⟩

end Pango.Spec
