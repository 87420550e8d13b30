import Verif.Model.TraceLog
/-
`TraceLog::getStats` (src/trace_log.cc).
-/
namespace Phosphor.TLog
variable {ε : Type}

/-- `getStats` (trace_log.cc:241-254), under the mutex; the calls made to the callback, in order.
`groups`: the `group_count` of the registry (category_registry.cc:128-132); `names`:
`thread_names.size()`, as the map is modelled by a function. -/
def St.getStats (s : St ε) (groups names : Nat) : List (Str × Buffer.StatVal) :=
  [("registry_group_count".toList, .num groups)] ++
  (match s.buffer with
    | some b => (s.heap b).getStats
    | none => []) ++
  [ ("log_is_enabled".toList, .bool s.enabled),
    ("log_has_buffer".toList, .bool s.buffer.isSome),
    ("log_thread_names".toList, .num names),
    ("log_deregistered_threads".toList, .num s.dereg.length),
    ("log_registered_tenants".toList, .num s.registered.length) ]

end Phosphor.TLog
