import Verif.Proofs.Grouped
import Verif.Proofs.Dot
import Verif.Props.Item
import Verif.Props.Automaton

/-!
# C56: printing the automaton
-/

namespace Pango.Props

open Pango Pango.Parse Pango.Spec Pango.Spec.Dot

variable {V T : Type} [DecidableEq V] [DecidableEq T]

/-- What a line of a label should show of an item: its head, an arrow, the symbols in front of the cursor, a bullet
and the other symbols. -/
def itemLine (showV : V → List Char) (showT : T → List Char) (p : V × Item V T) : Text :=
  let name : Sym V T → Text
    | .var v => showV v
    | .term t => showT t
    | .eps => "Epsilon".toList
  showV p.1 ++ " ➞ ".toList ++
    [' '].intercalate ((p.2.body.take p.2.cursor).map name ++ ['•'] :: (p.2.body.drop p.2.cursor).map name)

/-- What the label of an edge should show. -/
def edgeLine (showV : V → List Char) (showT : T → List Char) : Sym V T → Text
  | .var v => showV v
  | .term t => showT t
  | .eps => "Epsilon".toList

def shownLabel (as : Attrs) : Option (List Text) := (attr as "label").bind labelLines

/-- A graph that describes an automaton: one node for each state, named by its number, with one line for each item
in some order; and one edge for each transition, with the name of its symbol. -/
def Describes (showV : V → List Char) (showT : T → List Char) (c : Cfsm V T) (g : Graph) : Prop :=
  (∃ order : CState V T → List (V × Item V T), (∀ s ∈ c.states, (order s).Perm s.items) ∧
    g.nodes.map (fun n => (n.1, shownLabel n.2)) =
      c.states.map (fun s => ((toString s.id).toList, some ((order s).map (itemLine showV showT))))) ∧
  (g.edges.map (fun e => (e.1, e.2.1, shownLabel e.2.2))).Perm
    (c.states.flatMap fun s => s.transitions.map fun t =>
      ((toString s.id).toList, (toString t.2).toList, some [edgeLine showV showT t.1]))

/-- C56 as stated: whatever the names of the symbols are, the printed automaton is a DOT graph that describes the
automaton. -/
def PrintsGraph : Prop :=
  ∀ (V T : Type) [DecidableEq V] [DecidableEq T] (g : Grammar V T), Built g →
    ∀ (fuel : Nat) (ord ord' : HashOrder) (c : Cfsm V T), Cfsm.fromGrammar g ord fuel = .ok c →
      ∀ (showV : V → List Char) (showT : T → List Char),
        ∃ gr, read (c.toDot showV showT ord') = some gr ∧ Describes showV showT c gr

/-- The `Debug` output of a string of letters. -/
def quoteName (s : String) : List Char := '"' :: s.toList ++ ['"']

/-- C56 is false: with strings as symbols, whose names are in quotes, the text is not in the DOT language. -/
theorem c56_false : ¬ PrintsGraph := by
  intro h
  obtain ⟨gr, h, _⟩ := h String String rightRecursive rightRecursive_built 20 .insertion .insertion
    rightRecursiveCfsm rightRecursive_cfsm quoteName quoteName
  have : read (rightRecursiveCfsm.toDot quoteName quoteName .insertion) = none := by decide +kernel
  rw [this] at h
  cases h

theorem joinText_eq (sep : List Char) (xs : List (List Char)) : joinText sep xs = sep.intercalate xs := by
  induction xs with
  | nil => rfl
  | cons x xs ih =>
    cases xs with
    | nil => simp [joinText, List.intercalate]
    | cons y xs =>
      rw [joinText, ih]
      simp [List.intercalate, List.intersperse]

/-- C47, the text: the names of the symbols in front of the cursor, a bullet, and the other names, with spaces between
them. -/
theorem c47_text (showV : V → List Char) (showT : T → List Char) (i : Item V T) (h : i.cursor ≤ i.body.length) :
    i.text showV showT = [' '].intercalate ((i.body.take i.cursor).map (symText showV showT) ++
      "•".toList :: (i.body.drop i.cursor).map (symText showV showT)) := by
  simp only [Item.text, c47_render _ _ h, joinText_eq]
  simp [Function.comp_def]

example : (⟨[.var 'A', .term 't'], 1⟩ : Item Char Char).text (fun c => [c]) (fun c => [c]) = "A • t".toList := by decide

theorem edgeLine_eq (showV : V → List Char) (showT : T → List Char) (s : Sym V T) :
    symText showV showT s = edgeLine showV showT s := by
  cases s <;> rfl

theorem itemText_eq (showV : V → List Char) (showT : T → List Char) {p : V × Item V T}
    (h : p.2.cursor ≤ p.2.body.length) : itemText showV showT p = itemLine showV showT p := by
  have hf : (fun s : Sym V T => symText showV showT s) = fun s => match s with
      | .var v => showV v
      | .term t => showT t
      | .eps => "Epsilon".toList := by
    funext s
    cases s <;> rfl
  simp only [itemText, itemLine, Item.text, c47_render _ _ h, joinText_eq, ← hf]
  simp [Function.comp_def]

theorem toDigits_eq (n : Nat) : Nat.toDigits 10 n = (toString n).toList := by
  simp [toString, Nat.repr]

theorem perm_flatMap {α β : Type} {f g : α → List β} {l : List α} (h : ∀ a ∈ l, (f a).Perm (g a)) :
    (l.flatMap f).Perm (l.flatMap g) := by
  induction l with
  | nil => exact .nil
  | cons a l ih => exact (h a (by simp)).append (ih fun b hb => h b (by simp [hb]))

/-- No quote, no backslash and no newline. -/
def Quiet (s : List Char) : Prop := ∀ c ∈ s, c ≠ '"' ∧ c ≠ '\\' ∧ c ≠ '\n'

theorem itemLine_line {showV : V → List Char} {showT : T → List Char} {p : V × Item V T}
    (hv : Quiet (showV p.1)) (hb : ∀ s ∈ p.2.body, Quiet (edgeLine showV showT s)) :
    Line (itemLine showV showT p) := by
  have hf : (fun s : Sym V T => match s with
      | .var v => showV v
      | .term t => showT t
      | .eps => "Epsilon".toList) = edgeLine showV showT := by
    funext s
    cases s <;> rfl
  simp only [itemLine, hf, ← joinText_eq]
  refine Line.append (Line.append hv (by unfold Line; decide)) (line_join (by unfold Line; decide) ?_)
  intro x hx
  simp only [List.mem_append, List.mem_cons, List.mem_map] at hx
  rcases hx with ⟨s, hs, rfl⟩ | rfl | ⟨s, hs, rfl⟩
  · exact hb s (List.mem_of_mem_take hs)
  · unfold Line; decide
  · exact hb s (List.mem_of_mem_drop hs)

/-- C56, the part that holds: if the names of the symbols in the rules contain no quotes, backslashes and newlines
then the printed automaton is a DOT graph that describes the automaton, in whatever order the hash containers are
iterated.  Missing: other names, for which the claim is false. -/
theorem c56_partial {g : Grammar V T} (hg : Built g) (fuel : Nat) (ord ord' : HashOrder) (c : Cfsm V T)
    (hc : Cfsm.fromGrammar g ord fuel = .ok c) (showV : V → List Char) (showT : T → List Char)
    (hnames : ∀ v β, (v, β) ∈ g.rules → Quiet (showV v) ∧ ∀ s ∈ β, Quiet (edgeLine showV showT s)) :
    ∃ gr, read (c.toDot showV showT ord') = some gr ∧ Describes showV showT c gr := by
  have ok := fromGrammar_ok hg.wellFormed hc
  have hne : ∀ s ∈ c.states, s.items ≠ [] := by
    intro s hs
    obtain ⟨h1, h2⟩ := c33_viable hg fuel ord c hc
    obtain ⟨γ, hγ⟩ := h1 s hs
    obtain ⟨p, hp⟩ := (h2 γ).2.1.1 ⟨s, hγ⟩
    have := ((h2 γ).2.2 s hγ).1 p |>.2 hp
    intro h
    simp [h] at this
  have hline : ∀ s ∈ c.states, ∀ p ∈ s.items, Line (itemLine showV showT p) := by
    intro s hs p hp
    have h := hnames _ _ ((ok.sets s hs).ok p hp).rule
    exact itemLine_line h.1 h.2
  have htext : ∀ s ∈ c.states, ∀ p ∈ s.items, itemText showV showT p = itemLine showV showT p :=
    fun s hs p hp => itemText_eq _ _ ((ok.sets s hs).ok p hp).le
  have hlabel : ∀ s ∈ c.states, (((ord'.sub s.id).sub 0).grouped Prod.fst s.items).map (itemText showV showT) =
      (((ord'.sub s.id).sub 0).grouped Prod.fst s.items).map (itemLine showV showT) :=
    fun s hs => List.map_congr_left fun p hp => htext s hs p (HashOrder.mem_grouped _ |>.1 hp)
  have hsym : ∀ s ∈ c.states, ∀ x d, (x, d) ∈ s.transitions → Line (symText showV showT x) := by
    intro s hs x d hd
    obtain ⟨p, hp, hx⟩ := (ok.read s hs x).1 (List.mem_map.2 ⟨_, hd, rfl⟩)
    rw [edgeLine_eq]
    exact (hnames _ _ ((ok.sets s hs).ok p hp).rule).2 x (List.mem_of_getElem? hx)
  let label : CState V T → Text := fun s =>
    joinText ['\\', 'n'] ((((ord'.sub s.id).sub 0).grouped Prod.fst s.items).map (itemText showV showT))
  let edges : List (Nat × Sym V T × Nat) :=
    c.states.flatMap fun s => (ord'.shuffle [s.id, 1] _ s.transitions).map fun t => (s.id, t)
  have hedges : c.states.flatMap (edgeTexts showV showT ord') =
      edges.map fun e => edgeText showV showT e.1 e.2 := by
    simp only [edges, List.map_flatMap, List.map_map]
    rfl
  have hmem : ∀ e ∈ edges, ∃ s ∈ c.states, s.id = e.1 ∧ e.2 ∈ s.transitions := by
    intro e he
    obtain ⟨s, hs, he⟩ := List.mem_flatMap.1 he
    obtain ⟨t, ht, rfl⟩ := List.mem_map.1 he
    exact ⟨s, hs, rfl, ord'.mem_shuffle.1 ht⟩
  have hnodes := run_lines (nodeText showV showT ord') (fun s => nodeToks s.id (label s)) c.states
    (fun s hs => run_node s.id (smooth_join smooth_newline (by
      intro x hx
      rw [hlabel s hs] at hx
      obtain ⟨p, hp, rfl⟩ := List.mem_map.1 hx
      exact (hline s hs p (HashOrder.mem_grouped _ |>.1 hp)).smooth)))
  have htrans := run_lines (fun e : Nat × Sym V T × Nat => edgeText showV showT e.1 e.2)
    (fun e => edgeToks e.1 e.2.2 (symText showV showT e.2.1)) edges
    (fun e he => by
      obtain ⟨s, hs, _, ht⟩ := hmem e he
      exact run_edge e.1 e.2.2 (hsym s hs e.2.1 e.2.2 ht).smooth)
  rw [← hedges] at htrans
  have hhead : run .plain "digraph cfsm {\n\trankdir=LR;\n\n\tnode [shape=rectangle];\n".toList =
      some (headToks, .plain) := by decide
  have hblank : run .plain "\n\n".toList = some ([], .plain) := by decide
  have hend : run .plain "\n}".toList = some ([.rbrace], .plain) := by decide
  have hrun := run_append_of (run_append_of (run_append_of (run_append_of hhead hnodes) hblank) htrans) hend
  rw [List.append_nil] at hrun
  obtain ⟨ms, hread⟩ := read_of_run (name := fun e : Nat × Sym V T × Nat => symText showV showT e.2.1) hrun
  refine ⟨_, hread, ?_, ?_⟩
  · refine ⟨fun s => ((ord'.sub s.id).sub 0).grouped Prod.fst s.items, fun s _ => HashOrder.grouped_perm _ _ _, ?_⟩
    rw [List.map_map]
    refine List.map_congr_left fun s hs => ?_
    have h1 := hlabel s hs
    have h2 : labelLines (label s) = some ((((ord'.sub s.id).sub 0).grouped Prod.fst s.items).map (itemLine showV showT)) := by
      simp only [label, h1]
      refine labelLines_join ?_ ?_
      · intro h
        have h3 := congrArg List.length h
        simp only [List.length_map, HashOrder.length_grouped, List.length_nil] at h3
        exact hne s hs (List.length_eq_zero_iff.1 h3)
      · intro x hx
        obtain ⟨p, hp, rfl⟩ := List.mem_map.1 hx
        exact hline s hs p (HashOrder.mem_grouped _ |>.1 hp)
    simp only [Function.comp_apply, shownLabel, attr_label, Option.bind_some, h2, toDigits_eq]
  · rw [List.map_map]
    have h1 : edges.map ((fun e => (e.1, e.2.1, shownLabel e.2.2)) ∘ fun e =>
        (Nat.toDigits 10 e.1, Nat.toDigits 10 e.2.2, [("label".toList, symText showV showT e.2.1)])) =
        edges.map fun e => ((toString e.1).toList, (toString e.2.2).toList, some [edgeLine showV showT e.2.1]) := by
      refine List.map_congr_left fun e he => ?_
      obtain ⟨s, hs, _, ht⟩ := hmem e he
      have := labelLines_join (xs := [symText showV showT e.2.1]) (by simp)
        (by simpa using hsym s hs e.2.1 e.2.2 ht)
      simp only [joinText] at this
      simp only [Function.comp_apply, shownLabel, attr_label, Option.bind_some, this, ← edgeLine_eq,
        toDigits_eq]
    rw [h1]
    simp only [edges, List.map_flatMap, List.map_map]
    refine perm_flatMap fun s _ => ?_
    exact (ord'.perm _ _ _).map _

/-- A recursive grammar with plain names, and how many nodes and edges its printed automaton has. -/
example : (∀ v β, (v, β) ∈ rightRecursive.rules →
      Quiet v.toList ∧ ∀ s ∈ β, Quiet (edgeLine String.toList String.toList s)) ∧
    (read (rightRecursiveCfsm.toDot String.toList String.toList .reversed)).map
      (fun g => (g.nodes.length, g.edges.length)) =
      some (rightRecursiveCfsm.states.length, 8) := by
  refine ⟨?_, by decide +kernel⟩
  intro v β h
  have hall : ∀ r ∈ rightRecursive.rules, (∀ c ∈ r.1.toList, c ≠ '"' ∧ c ≠ '\\' ∧ c ≠ '\n') ∧
      ∀ s ∈ r.2, ∀ c ∈ edgeLine String.toList String.toList s, c ≠ '"' ∧ c ≠ '\\' ∧ c ≠ '\n' := by
    decide +kernel
  exact hall (v, β) h

end Pango.Props
