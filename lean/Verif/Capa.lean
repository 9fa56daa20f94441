import Verif.Basic

/-!
The document of a program's capabilities (src/mtev_capabilities_listener.c).
-/

namespace Mtev.Capa

/-- A hexadecimal digit. -/
def dig (d : Nat) : Nat := if d < 10 then 48 + d else 87 + d

/-- `%llx`. -/
def hex (n : Nat) : List Nat := if n < 16 then [dig n] else hex (n / 16) ++ [dig (n % 16)]
termination_by n
decreasing_by omega

/-- The key of a service in the JSON document: `0x` and the address of its
    function, printed to a buffer of 11 bytes.
    /repo/src/mtev_capabilities_listener.c 198, 204-211 -/
def key (addr : Nat) : List Nat := ([48, 120] ++ hex addr).take 10

/-- The key of a command: `0x%08x` of its 32 bits.
    /repo/src/mtev_capabilities_listener.c 219 -/
def cmdKey (c : Nat) : List Nat := ([48, 120] ++ (List.replicate (8 - (hex c).length) 48 ++ hex c)).take 10

/-- `MJ_KV`: a value under a key, in the place of the one that was there.
    /repo/src/json-lib/mtev_json_object.c 287-292 (`mtev_json_object_object_add`).
    Simplified: the order of keys is not modelled further. -/
def kv {α : Type} (doc : List (List Nat × α)) (k : List Nat) (v : α) : List (List Nat × α) :=
  doc.filter (fun x => x.1 != k) ++ [(k, v)]

/-- The services of the document: for each its commands.  `svcs` are the
    addresses and commands in the table of listener commands.
    /repo/src/mtev_capabilities_listener.c 194-230 -/
def services (svcs : List (Nat × List Nat)) : List (List Nat × List (List Nat × Nat)) :=
  svcs.foldl (fun doc s => kv doc (key s.1) (s.2.foldl (fun d c => kv d (cmdKey c) c) [])) []

/-- `mtev_capabilities_add_feature`: the first version given stays.
    /repo/src/mtev_capabilities_listener.c 86-93 -/
def addFeature (fs : List (List Nat × Option (List Nat))) (f : List Nat) (v : Option (List Nat)) :
    List (List Nat × Option (List Nat)) :=
  if fs.any (fun x => x.1 == f) then fs else fs ++ [(f, v)]

/-- What a write answers. -/
inductive Ans where
  | took (n : Nat)
  | again
  | intr
  | fail
deriving DecidableEq, Repr

/-- The connection: what was written, and whether it is closed. -/
structure Conn where
  written : Nat
  out : List Nat
  closed : Bool
deriving DecidableEq, Repr

/-- `mtev_capabilities_handler`, one call, with the answers of its writes.
    Running out of answers is leaving the call.
    /repo/src/mtev_capabilities_listener.c 398-434 -/
def handler (text : List Nat) (c : Conn) : List Ans → Conn
  | [] => if c.written < text.length then c else { c with closed := true }
  | a :: as =>
    if c.written < text.length then
      match a with
      | .intr => handler text c as
      | .again => c
      | .fail => { c with closed := true }
      | .took n =>
          let k := min n (text.length - c.written)
          handler text { c with written := c.written + k, out := c.out ++ (text.drop c.written).take k } as
    else { c with closed := true }

/-- The calls for a connection: each with an exception or with answers of
    writes.  After it is closed there are no more. -/
def calls (text : List Nat) (c : Conn) : List (Option (List Ans)) → Conn
  | [] => c
  | x :: xs =>
    if c.closed then c else
    match x with
    | none => calls text { c with closed := true } xs
    | some as => calls text (handler text c as) xs

end Mtev.Capa
