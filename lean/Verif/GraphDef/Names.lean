/-!
# Unique names in proto networks

Models the naming of functions and variables while a proto network is being
recorded: `python/src/nnabla/core/graph_def.py`.

Simplification: a Python `dict` from prefix to counter is an association list
whose most recent entry for a key is the current one; a Python `str` is a Lean
`String`.
-/

namespace Verif.GraphDef

/-- graph_def.py:240 `"{}_{}".format(prefix, n)`. -/
def numbered (prefix_ : String) (n : Nat) : String := prefix_ ++ "_" ++ n.repr

/-- the counter dictionary `names` (graph_def.py:389-390 `func_names`,
`var_names`). -/
abbrev Counters := List (String × Nat)

/-- graph_def.py:238-245 `_get_unique_name(names, prefix)`: the name handed out
and the updated dictionary. -/
def getUniqueName (names : Counters) (prefix_ : String) : String × Counters :=
  match names.lookup prefix_ with
  | some n => (numbered prefix_ n, (prefix_, n + 1) :: names)
  | none => (prefix_, (prefix_, 1) :: names)

/-- The names handed out for a sequence of requests (one network's functions, or
one network's variables, in the order in which they are recorded);
graph_def.py:2244-2245 and 2359. -/
def handOut (names : Counters) : List String → List String
  | [] => []
  | p :: ps => (getUniqueName names p).1 :: handOut (getUniqueName names p).2 ps

/-- How a variable enters the `variables` dictionary of a network while it is
being recorded (graph_def.py:2316-2366 `_proto_call`). -/
inductive Entry
  /-- an input proto variable which the user has named: stored under exactly that
  name, `var_names` is neither consulted nor updated (graph_def.py:2330-2332) -/
  | userNamed (name : String)
  /-- an unnamed input (`<type>_in`) or a function output (`<type>_out`): named by
  `_get_unique_name` (graph_def.py:2334-2339, 2352-2362) -/
  | generated (prefix_ : String)
  deriving DecidableEq

/-- the keys under which the entries are stored, in order -/
def storedKeys (names : Counters) : List Entry → List String
  | [] => []
  | .userNamed n :: es => n :: storedKeys names es
  | .generated p :: es => (getUniqueName names p).1 :: storedKeys (getUniqueName names p).2 es

end Verif.GraphDef
