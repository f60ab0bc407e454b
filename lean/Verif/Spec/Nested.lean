import Verif.Spec.Plugged
import Verif.Spec.Rename

/-!
# Lists in brackets, of anything
-/

namespace Pango.Spec

open Pango.Parse

/-- Lists of lists of ... of something. -/
inductive Data (X : Type) where
  | leaf (x : X)
  | list (ds : List (Data X))

/-- The variables of the grammar of lists: a list or an element, what is behind the opening bracket, and one or more
elements. -/
inductive ListVar where
  | data
  | rest
  | items
  deriving DecidableEq

variable {X W T : Type}

mutual
/-- The property holds for all that the lists are made of. -/
def Data.All (P : X → Prop) : Data X → Prop
  | .leaf x => P x
  | .list ds => allData P ds

/-- The property holds for all that the lists are made of. -/
def allData (P : X → Prop) : List (Data X) → Prop
  | [] => True
  | d :: ds => Data.All P d ∧ allData P ds
end

mutual
/-- How lists are written: in brackets, with a separator between the elements. -/
def Data.text (opening sep closing : T) (f : X → List T) : Data X → List T
  | .leaf x => f x
  | .list ds => opening :: itemsText opening sep closing f ds ++ [closing]

/-- How elements are written: with a separator between them. -/
def itemsText (opening sep closing : T) (f : X → List T) : List (Data X) → List T
  | [] => []
  | [d] => Data.text opening sep closing f d
  | d :: ds => Data.text opening sep closing f d ++ sep :: itemsText opening sep closing f ds
end

/-- The rules for lists: `data → S | [ rest`, `rest → ] | items ]`, `items → data | items , data`, and the rules of the
grammar of the elements, where `S` is its start variable.  There is no rule `data → [ ]` beside `data → [ items ]`, as the
code refuses a grammar with two items that shift the same terminal. -/
inductive ListRule (i : Grammar W T) (opening sep closing : T) : ListVar ⊕ W → Body (ListVar ⊕ W) T → Prop
  | leaf : ListRule i opening sep closing (.inl .data) [.var (.inr i.start)]
  | list : ListRule i opening sep closing (.inl .data) [.term opening, .var (.inl .rest)]
  | done : ListRule i opening sep closing (.inl .rest) [.term closing]
  | some : ListRule i opening sep closing (.inl .rest) [.var (.inl .items), .term closing]
  | one : ListRule i opening sep closing (.inl .items) [.var (.inl .data)]
  | more : ListRule i opening sep closing (.inl .items) [.var (.inl .items), .term sep, .var (.inl .data)]
  | inner {w : W} {β : Body W T} : (w, β) ∈ i.rules → ListRule i opening sep closing (.inr w) (β.map innerSym)

/-- The tree of one or more elements, from the trees of the elements.  The children of a node are in reverse order. -/
def itemsTree (sep : T) (n : Node (ListVar ⊕ W) T) (ns : List (Node (ListVar ⊕ W) T)) : Node (ListVar ⊕ W) T :=
  ns.foldl (fun before n => .mk (.var (.inl .items)) [n, .mk (.term sep) [], before]) (.mk (.var (.inl .items)) [n])

mutual
/-- The tree of a list, made of the trees of what the list is made of. -/
def Data.tree (opening sep closing : T) (f : X → Node W T) : Data X → Node (ListVar ⊕ W) T
  | .leaf x => .mk (.var (.inl .data)) [(f x).rename .inr id]
  | .list ds =>
    let inside := match dataTrees opening sep closing f ds with
      | [] => []
      | n :: ns => [itemsTree sep n ns]
    .mk (.var (.inl .data)) [.mk (.var (.inl .rest)) (.mk (.term closing) [] :: inside), .mk (.term opening) []]

/-- The trees of the elements of a list. -/
def dataTrees (opening sep closing : T) (f : X → Node W T) : List (Data X) → List (Node (ListVar ⊕ W) T)
  | [] => []
  | d :: ds => Data.tree opening sep closing f d :: dataTrees opening sep closing f ds
end

/-- What is needed of the grammar of the elements, the brackets and the separator: there is no epsilon, there is one
terminal of each kind in the grammar, and the brackets and the separator are of other kinds. -/
structure ListFit [TerminalEq T] (i : Grammar W T) (opening sep closing : T) : Prop where
  eps : EpsFree i
  kinds : ∀ t u, HasTerm i t → HasTerm i u → teq t u = true → t = u
  opening_sep : teq opening sep = false
  opening_closing : teq opening closing = false
  sep_closing : teq sep closing = false
  opening : ∀ t, HasTerm i t → teq opening t = false
  sep : ∀ t, HasTerm i t → teq sep t = false
  closing : ∀ t, HasTerm i t → teq closing t = false

end Pango.Spec
