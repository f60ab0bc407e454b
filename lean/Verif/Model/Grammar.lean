import Verif.Model.Basic

/-!
# Grammar, FIRST and FOLLOW (`pango-parser/src/{lib,grammar}.rs`)

A hash set is a list without duplicates, a hash map an association list.  Every iteration over one
whose order could be observed passes through a `HashOrder`, an arbitrary reordering.
-/

namespace Pango.Parse

/-- Insertion into a set.  `HashSet::insert`, for example at grammar.rs:447 and 490. -/
def insertNew {α : Type} [DecidableEq α] (a : α) (l : List α) : List α :=
  if a ∈ l then l else l ++ [a]

/-- `HashSet::extend`.  For example at grammar.rs:166, 170 and 356. -/
def extendSet {α : Type} [DecidableEq α] (l : List α) (new : List α) : List α :=
  new.foldl (fun l a => insertNew a l) l

/-- The iteration order of a map of sets, which the model has as the list of its elements: key by key, the keys in the
order of the map and the elements of a key in the order of their set.  The iterations at grammar.rs:294-298 and 339-343
and cfsm/item.rs:119-123 and 137-138. -/
def _root_.Pango.HashOrder.grouped {α κ : Type} [DecidableEq κ] (ord : HashOrder) (key : α → κ) (l : List α) : List α :=
  (ord.shuffle [0] _ (extendSet [] (l.map key)).zipIdx).flatMap fun k =>
    ord.shuffle [1, k.2] _ (l.filter fun a => key a = k.1)

/-- `HashMap::get`.  For example at grammar.rs:71-73. -/
def mapGet {α β : Type} [DecidableEq α] (m : List (α × β)) (k : α) : Option β :=
  match m with
  | [] => none
  | (k', v) :: r => if k' = k then some v else mapGet r k

/-- `HashMap::insert`.  For example at grammar.rs:445-447. -/
def mapSet {α β : Type} [DecidableEq α] (m : List (α × β)) (k : α) (v : β) : List (α × β) :=
  match m with
  | [] => [(k, v)]
  | (k', v') :: r => if k' = k then (k', v) :: r else (k', v') :: mapSet r k v

/-- `HashMap::remove`.  At grammar.rs:176 and 282. -/
def mapRemove {α β : Type} [DecidableEq α] (m : List (α × β)) (k : α) : List (α × β) :=
  m.filter (fun e => !decide (e.1 = k))

/-- `Symbol` (pango-parser/src/lib.rs:16-20). -/
inductive Sym (V T : Type) where
  | term (t : T)
  | var (v : V)
  | eps
  deriving Repr, DecidableEq

/-- `Body` (pango-parser/src/lib.rs:23). -/
abbrev Body (V T : Type) := List (Sym V T)

variable {V T : Type}

/-- `GrammarBuilder` (grammar.rs:394-399).  `Rules = HashMap<V, HashSet<Body>>` is the list of all
`(variable, body)` pairs; a variable is a key of the map exactly if it occurs in such a pair, because
entries are only created together with a body (grammar.rs:444-447). -/
structure GrammarBuilder (V T : Type) where
  start : Option V
  rules : List (V × Body V T)
  deriving Repr, DecidableEq

/-- `Grammar` (grammar.rs:16-21). -/
structure Grammar (V T : Type) where
  start : V
  rules : List (V × Body V T)
  deriving Repr, DecidableEq

/-- `GrammarBuilder::new` (grammar.rs:404-409). -/
def GrammarBuilder.new : GrammarBuilder V T := ⟨none, []⟩

/-- `set_start_variable`, `with_start_variable` (grammar.rs:418-432). -/
def GrammarBuilder.setStart (b : GrammarBuilder V T) (v : V) : GrammarBuilder V T :=
  { b with start := some v }

/-- An empty body becomes `[Epsilon]` (grammar.rs:438-442). -/
def normalizeBody (body : Body V T) : Body V T :=
  match body with
  | [] => [.eps]
  | b => b

variable [DecidableEq V] [DecidableEq T]

/-- `add_rule`, `with_rule` (grammar.rs:424-448): whether the rule is new, and the builder. -/
def GrammarBuilder.addRule (b : GrammarBuilder V T) (v : V) (body : Body V T) :
    Bool × GrammarBuilder V T :=
  let rule := (v, normalizeBody body)
  (!decide (rule ∈ b.rules), { b with rules := insertNew rule b.rules })

/-- `add_rules`, `with_rules` (grammar.rs:458-475). -/
def GrammarBuilder.addRules (b : GrammarBuilder V T) (v : V) (bodies : List (Body V T)) :
    GrammarBuilder V T :=
  bodies.foldl (fun b body => (b.addRule v body).2) b

/-- The variables of a body.  At grammar.rs:492-500. -/
def bodyVariables (body : Body V T) : List V :=
  body.filterMap fun s => match s with
    | .var v => some v
    | _ => none

/-- `GrammarBuilder::build` (grammar.rs:484-516): panics if there is no start variable, or if the
start variable or a variable of a body has no rule. -/
def GrammarBuilder.build (b : GrammarBuilder V T) : Outcome (Grammar V T) :=
  let heads := b.rules.map Prod.fst
  let variables := b.rules.flatMap (fun r => bodyVariables r.2)
  match b.start with
  | none => .panic
  | some start =>
    if (start :: variables).all (fun v => heads.contains v) then .ok ⟨start, b.rules⟩ else .panic

/-- `get_rule_bodies` (grammar.rs:71-73). -/
def Grammar.bodiesOf (g : Grammar V T) (v : V) : List (Body V T) :=
  g.rules.filterMap (fun r => if r.1 = v then some r.2 else none)

/-- `get_rule_bodies(v).expect(..)` (grammar.rs:104, 219-220, cfsm/item.rs:145-148): a variable without
rules panics. -/
def Grammar.expectBodies (g : Grammar V T) (v : V) : Outcome (List (Body V T)) :=
  match g.bodiesOf v with
  | [] => .panic
  | bs => .ok bs

/-! ## FIRST -/

/-- The local variables of `first_bodies` (grammar.rs:133-147).  A body iterator is the list of the
symbols it will still yield. -/
structure FirstState (V T : Type) where
  result : List (Sym V T)
  first : List (V × List (Sym V T))
  pending : List (Option V × List (Body V T))
  deps : List (V × List (Option V × List (Body V T)))
  visited : List V

/-- `extend_for_variable` (grammar.rs:149-180). -/
def extendForVariable (ord : HashOrder) (owner : Option V) (symbols : List (Sym V T))
    (s : FirstState V T) : FirstState V T :=
  match owner with
  | none => { s with result := extendSet s.result symbols }
  | some v =>
    let old := (mapGet s.first v).getD []
    let new := extendSet old symbols
    let s := { s with first := mapSet s.first v new }
    if old.length ≠ new.length then
      match mapGet s.deps v with
      | some ds =>
        { s with pending := s.pending ++ ord.shuffle [] _ ds, deps := mapRemove s.deps v }
      | none => s
    else s

/-- `dependencies.entry(v).or_insert(..).entry(variable).or_insert(..).push(body)`
(grammar.rs:208-213). -/
def addDependency (v : V) (owner : Option V) (body : Body V T) (s : FirstState V T) :
    FirstState V T :=
  let ds := (mapGet s.deps v).getD []
  let bodies := (mapGet ds owner).getD []
  { s with deps := mapSet s.deps v (mapSet ds owner (bodies ++ [body])) }

/-- The `while let Some(symbol) = body.next()` loop (grammar.rs:186-275).  The iterators `body` and
`last_body` differ only by the symbol being looked at. -/
def firstBody (g : Grammar V T) (ord : HashOrder) (owner : Option V) :
    Body V T → FirstState V T → Outcome (FirstState V T)
  | [], s => .ok s
  | .term t :: rest, s => .ok (extendForVariable (ord.sub rest.length) owner [.term t] s)
  | .var v :: rest, s =>
    let s := addDependency v owner (.var v :: rest) s
    if v ∉ s.visited then do
      let bodies ← g.expectBodies v
      pure { s with
        pending := s.pending ++ [(some v, ord.shuffle [rest.length] _ bodies)]
        visited := s.visited ++ [v] }
    else
      match mapGet s.first v with
      | none => .ok s
      | some firstV =>
        let s := extendForVariable (ord.sub rest.length) owner
          (firstV.filter fun x => !decide (x = .eps) || rest.isEmpty) s
        if .eps ∈ firstV then firstBody g ord owner rest s else .ok s
  | .eps :: rest, s =>
    if rest.isEmpty then .ok (extendForVariable (ord.sub rest.length) owner [.eps] s)
    else firstBody g ord owner rest s

/-- `for body in bodies` (grammar.rs:183-276). -/
def firstEach (g : Grammar V T) (ord : HashOrder) (owner : Option V) :
    List (Body V T) → FirstState V T → Outcome (FirstState V T)
  | [], s => .ok s
  | b :: bs, s => do
    let s ← firstBody g (ord.sub bs.length) owner b s
    firstEach g ord owner bs s

/-- The main loop of `first_bodies` (grammar.rs:182-277), at most `n` iterations. -/
def firstLoop (g : Grammar V T) : HashOrder → Nat → FirstState V T → Outcome (FirstState V T)
  | ord, n, s =>
    match s.pending with
    | [] => .ok s
    | (owner, bodies) :: pending =>
      match n with
      | 0 => .diverge
      | n + 1 => do
        let s ← firstEach g (ord.sub 0) owner bodies { s with pending := pending }
        firstLoop g (ord.sub 1) n s

/-- `first_bodies` (grammar.rs:117-286). -/
def firstBodies (g : Grammar V T) (ord : HashOrder) (fuel : Nat) (owner : Option V)
    (bodies : List (Body V T)) : Outcome (List (Sym V T)) := do
  let visited := match owner with
    | some v => [v]
    | none => []
  let s ← firstLoop g ord fuel ⟨[], [], [(owner, bodies)], [], visited⟩
  pure (match owner with
    | some v => (mapGet s.first v).getD []
    | none => s.result)

/-- `first` (grammar.rs:101-107). -/
def Grammar.first (g : Grammar V T) (ord : HashOrder) (fuel : Nat) (v : V) :
    Outcome (List (Sym V T)) := do
  let bodies ← g.expectBodies v
  firstBodies g ord fuel (some v) (ord.shuffle [] _ bodies)

/-! ## FOLLOW -/

/-- The maps `result` and `follow_dependencies` of `follow_set` (grammar.rs:289-292). -/
structure FollowState (V T : Type) where
  result : List (V × List (Sym V T))
  deps : List (V × List V)

/-- `follow_dependencies.entry(head).or_default().insert(variable)` (grammar.rs:315-318,
327-330). -/
def addFollowDep (head v : V) (s : FollowState V T) : FollowState V T :=
  { s with deps := mapSet s.deps head (insertNew v ((mapGet s.deps head).getD [])) }

/-- The loop over the variables of one body (grammar.rs:301-333). -/
def followBody (g : Grammar V T) (ord : HashOrder) (fuel : Nat) (head : V) :
    Body V T → FollowState V T → Outcome (FollowState V T)
  | [], s => .ok s
  | .var v :: rest, s =>
    if rest.isEmpty then followBody g ord fuel head rest (addFollowDep head v s)
    else do
      let first ← firstBodies g (ord.sub rest.length) fuel none [rest]
      let s := if .eps ∈ first then addFollowDep head v s else s
      let new := extendSet ((mapGet s.result v).getD []) (first.filter fun x => !decide (x = .eps))
      let s := { s with result := mapSet s.result v new }
      followBody g ord fuel head rest s
  | _ :: rest, s => followBody g ord fuel head rest s

/-- The loop over all rules (grammar.rs:294-334). -/
def followRules (g : Grammar V T) (ord : HashOrder) (fuel : Nat) :
    List (V × Body V T) → FollowState V T → Outcome (FollowState V T)
  | [], s => .ok s
  | (head, body) :: rules, s => do
    let s ← followBody g (ord.sub rules.length) fuel head body s
    followRules g ord fuel rules s

/-- The propagation loop (grammar.rs:345-372), at most `n` iterations.  A queue entry `(lhs, rhs)` means
that FOLLOW(lhs) contains FOLLOW(rhs). -/
def followLoop (deps : List (V × List V)) :
    HashOrder → Nat → List (V × V) → List (V × List (Sym V T)) → Outcome (List (V × List (Sym V T)))
  | _, _, [], result => .ok result
  | _, 0, _ :: _, _ => .diverge
  | ord, n + 1, (lhs, rhs) :: queue, result =>
    match mapGet result rhs with
    | none => followLoop deps (ord.sub 1) n queue result
    | some rhsFollow =>
      let old := (mapGet result lhs).getD []
      let new := extendSet old rhsFollow
      let result := mapSet result lhs new
      if old.length ≠ new.length then
        let again := (mapGet deps lhs).getD []
        followLoop deps (ord.sub 1) n (queue ++ (ord.shuffle [0] _ again).map (fun l => (l, lhs))) result
      else followLoop deps (ord.sub 1) n queue result

/-- `follow_set` (grammar.rs:288-375).  The rules are looked at head by head and the dependencies variable by variable,
both being maps of sets. -/
def Grammar.followSet (g : Grammar V T) (ord : HashOrder) (fuel : Nat) :
    Outcome (List (V × List (Sym V T))) := do
  let s ← followRules g (ord.sub 1) fuel ((ord.sub 0).grouped Prod.fst g.rules) ⟨[], []⟩
  let queue := s.deps.flatMap (fun d => d.2.map (fun l => (l, d.1)))
  followLoop s.deps (ord.sub 3) fuel ((ord.sub 2).grouped Prod.snd queue) s.result

end Pango.Parse
