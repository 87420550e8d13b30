import Verif.Spec.Event
import Verif.Spec.Buffer
import Verif.Model.Export
/-
The exported document and the path expansion, written independently of the exporter's state
machine.
-/
namespace Phosphor
open Json

/-- The text of an event that has one. -/
def eventText (pid : Int) (p : Event × Nat) : Str :=
  match p.1.toJson pid (BitVec.ofNat 32 p.2) with
  | .ok s => s
  | _ => []

/-- The exported document: all thread names, then all events. -/
def document (pid : Int) (names : List (Nat × Str)) (events : List (Event × Nat)) : Str :=
  "{\"traceEvents\":[".toList ++
    commaJoin (names.map (threadAssociationToString pid) ++ events.map (eventText pid)) ++
    "]}".toList

/-- The context describes the trace `contents`: per chunk its thread and events, all of which
have a JSON text. -/
structure TraceContext.Holds (ctx : TraceContext) (pid : Int) (contents : List (Nat × List Event)) :
    Prop where
  buffer : ∃ b, ctx.buffer = some b ∧ b.Holds contents
  texts : ∀ p ∈ flatEvents contents, ∃ s, p.1.toJson pid (BitVec.ofNat 32 p.2) = .ok s

/-- The metadata object of a named thread in the Trace Event Format. -/
def nameObject (pid : Int) (assoc : Nat × Str) : JVal :=
  .obj [("name".toList, .str "thread_name".toList), ("ph".toList, .str "M".toList),
    ("pid".toList, .num pid), ("tid".toList, .num assoc.1),
    ("args".toList, .obj [("name".toList, .str assoc.2)])]

/-- The path with its first `%p` replaced by `p` and its first `%d` replaced by `d`, in one
left-to-right pass. The flags tell whether the replacement is still to be made. -/
def expand (p d : Str) : Bool → Bool → Str → Str
  | _, _, [] => []
  | _, _, [c] => [c]
  | wp, wd, c :: c' :: r =>
    if wp ∧ c = '%' ∧ c' = 'p' then p ++ expand p d false wd r
    else if wd ∧ c = '%' ∧ c' = 'd' then d ++ expand p d wp false r
    else c :: expand p d wp wd (c' :: r)
termination_by _ _ s => s.length

end Phosphor
