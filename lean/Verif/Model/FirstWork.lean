import Verif.Model.Grammar

/-!
# How many bodies `first_bodies` looks at

The functions follow the loops of `Model/Grammar.lean` and count the iterations of `for body in bodies`
(grammar.rs:183).
-/

namespace Pango.Parse

variable {V T : Type} [DecidableEq V] [DecidableEq T]

/-- How many bodies the main loop of `first_bodies` looks at (grammar.rs:182-277), in at most `n` iterations. -/
def firstCount (g : Grammar V T) : HashOrder → Nat → FirstState V T → Nat
  | ord, n, s =>
    match s.pending with
    | [] => 0
    | (owner, bodies) :: pending =>
      match n with
      | 0 => 0
      | n + 1 =>
        bodies.length +
          match firstEach g (ord.sub 0) owner bodies { s with pending := pending } with
          | .ok s => firstCount g (ord.sub 1) n s
          | _ => 0

/-- How many bodies `first_bodies` looks at (grammar.rs:117-286). -/
def firstBodiesCount (g : Grammar V T) (ord : HashOrder) (fuel : Nat) (owner : Option V)
    (bodies : List (Body V T)) : Nat :=
  let visited := match owner with
    | some v => [v]
    | none => []
  firstCount g ord fuel ⟨[], [], [(owner, bodies)], [], visited⟩

/-- How many bodies are looked at for one body of a rule in `follow_set` (grammar.rs:301-333). -/
def followBodyCount (g : Grammar V T) (ord : HashOrder) (fuel : Nat) : Body V T → Nat
  | [] => 0
  | .var _ :: rest =>
    if rest.isEmpty then followBodyCount g ord fuel rest
    else firstBodiesCount g (ord.sub rest.length) fuel none [rest] + followBodyCount g ord fuel rest
  | _ :: rest => followBodyCount g ord fuel rest

/-- The same for all rules (grammar.rs:294-334). -/
def followRulesCount (g : Grammar V T) (ord : HashOrder) (fuel : Nat) : List (V × Body V T) → Nat
  | [] => 0
  | (_, body) :: rules => followBodyCount g (ord.sub rules.length) fuel body + followRulesCount g ord fuel rules

/-- How many bodies `follow_set` looks at while it computes FIRST sets (grammar.rs:288-375).  It makes no other
calls of `first_bodies`. -/
def Grammar.followCount (g : Grammar V T) (ord : HashOrder) (fuel : Nat) : Nat :=
  followRulesCount g (ord.sub 1) fuel ((ord.sub 0).grouped Prod.fst g.rules)

end Pango.Parse
