import Verif.Model.TraceLogStats
import Verif.Proof.TraceLogStats
import Verif.Props.TraceLog
/-
Property C52: statistics.
-/
namespace Phosphor.TLog
variable {ε : Type} {tid : Nat → Nat} {s s' : St ε} {t : Nat} {pol : Bool}

/-- What is reported under a key. -/
def stat (k : String) (l : List (Str × Buffer.StatVal)) : Option Buffer.StatVal := l.lookup k.toList

/-- The keys every buffer must report (trace_buffer.h:203-209). -/
def bufferKeys : List String :=
  ["buffer_name", "buffer_is_full", "buffer_chunk_count", "buffer_loaned_chunks", "buffer_total_loaned",
    "buffer_size", "buffer_generation"]

theorem stats_keys (x : Buffer ε) : x.getStats.map Prod.fst =
    ["buffer_name".toList, "buffer_is_full".toList, "buffer_chunk_count".toList, "buffer_total_loaned".toList,
      "buffer_loaned_chunks".toList, "buffer_size".toList, "buffer_generation".toList] := by
  unfold Buffer.getStats; cases x.mode <;> rfl

/-- C52: every documented key is reported, once, with a value of the documented type. -/
theorem C52_keys (x : Buffer ε) :
    (∀ k ∈ bufferKeys, (x.getStats.map Prod.fst).count k.toList = 1) ∧
    (∃ v, stat "buffer_name" x.getStats = some (.str v)) ∧
    (∃ v, stat "buffer_is_full" x.getStats = some (.bool v)) ∧
    ∀ k ∈ bufferKeys.drop 2, ∃ v, stat k x.getStats = some (.num v) := by
  rw [stats_keys]
  refine ⟨by decide, ?_⟩
  unfold stat Buffer.getStats
  cases x.mode <;> refine ⟨⟨_, rfl⟩, ⟨_, rfl⟩, ?_⟩ <;> intro k hk <;>
    simp only [bufferKeys, List.drop, List.mem_cons, List.not_mem_nil, or_false] at hk <;>
    rcases hk with rfl | rfl | rfl | rfl | rfl <;> exact ⟨_, rfl⟩

theorem lookup_right {a b : List (Str × Buffer.StatVal)} {k : Str} (h : k ∉ a.map Prod.fst) :
    (a ++ b).lookup k = b.lookup k := by
  induction a with
  | nil => rfl
  | cons x a ih =>
    obtain ⟨x1, x2⟩ := x
    simp only [List.map_cons, List.mem_cons, not_or] at h
    have : (k == x1) = false := by simpa using h.1
    rw [List.cons_append, List.lookup_cons, this]; exact ih h.2

theorem lookup_left {a b : List (Str × Buffer.StatVal)} {k : Str} (h : k ∉ b.map Prod.fst) :
    (a ++ b).lookup k = a.lookup k := by
  induction a with
  | nil => have := lookup_right (b := []) h; rw [List.append_nil] at this; exact this
  | cons x a ih =>
    obtain ⟨x1, x2⟩ := x
    rw [List.cons_append, List.lookup_cons, List.lookup_cons, ih]

/-- C52: `TraceLog::getStats` reports those keys for the buffer in the log, and its own. -/
theorem C52_log_keys (s : St ε) (g n : Nat) :
    (∀ b, s.buffer = some b → ∀ k ∈ bufferKeys, stat k (s.getStats g n) = stat k (s.heap b).getStats) ∧
    (s.buffer = none → ∀ k ∈ bufferKeys, stat k (s.getStats g n) = none) ∧
    stat "registry_group_count" (s.getStats g n) = some (.num g) ∧
    stat "log_is_enabled" (s.getStats g n) = some (.bool s.enabled) ∧
    stat "log_has_buffer" (s.getStats g n) = some (.bool s.buffer.isSome) ∧
    stat "log_thread_names" (s.getStats g n) = some (.num n) ∧
    stat "log_deregistered_threads" (s.getStats g n) = some (.num s.dereg.length) ∧
    stat "log_registered_tenants" (s.getStats g n) = some (.num s.registered.length) := by
  have pre : ∀ k ∈ bufferKeys, (k.toList == "registry_group_count".toList) = false := by decide
  have suf : ∀ k ∈ bufferKeys, k.toList ∉ ["log_is_enabled".toList, "log_has_buffer".toList,
      "log_thread_names".toList, "log_deregistered_threads".toList, "log_registered_tenants".toList] := by decide
  have own : ∀ k ∈ ["log_is_enabled", "log_has_buffer", "log_thread_names", "log_deregistered_threads",
      "log_registered_tenants"], (k.toList == "registry_group_count".toList) = false ∧
      k.toList ∉ ["buffer_name".toList, "buffer_is_full".toList, "buffer_chunk_count".toList,
        "buffer_total_loaned".toList, "buffer_loaned_chunks".toList, "buffer_size".toList,
        "buffer_generation".toList] := by decide
  generalize hmid : (match s.buffer with
    | some b => (s.heap b).getStats
    | none => []) = mid
  have split' : s.getStats g n = ("registry_group_count".toList, .num g) :: (mid ++
      [ ("log_is_enabled".toList, .bool s.enabled), ("log_has_buffer".toList, .bool s.buffer.isSome),
        ("log_thread_names".toList, .num n), ("log_deregistered_threads".toList, .num s.dereg.length),
        ("log_registered_tenants".toList, .num s.registered.length) ]) := by
    rw [← hmid]; rfl
  have hmk : ∀ k ∈ mid.map Prod.fst, k ∈ ["buffer_name".toList, "buffer_is_full".toList,
      "buffer_chunk_count".toList, "buffer_total_loaned".toList, "buffer_loaned_chunks".toList,
      "buffer_size".toList, "buffer_generation".toList] := by
    intro k hk
    rw [← hmid] at hk
    split at hk
    · rw [stats_keys] at hk; exact hk
    · cases hk
  have inOwn : ∀ k ∈ ["log_is_enabled", "log_has_buffer", "log_thread_names", "log_deregistered_threads",
      "log_registered_tenants"], stat k (s.getStats g n) = List.lookup k.toList
      [ ("log_is_enabled".toList, .bool s.enabled), ("log_has_buffer".toList, .bool s.buffer.isSome),
        ("log_thread_names".toList, .num n), ("log_deregistered_threads".toList, .num s.dereg.length),
        ("log_registered_tenants".toList, .num s.registered.length) ] := by
    intro k hk
    rw [split', stat, List.lookup_cons, (own k hk).1]
    exact lookup_right (fun h => (own k hk).2 (hmk _ h))
  have inMid : ∀ k ∈ bufferKeys, stat k (s.getStats g n) = stat k mid := by
    intro k hk
    rw [split', stat, List.lookup_cons, pre k hk]
    exact lookup_left (suf k hk)
  refine ⟨(fun b hb k hk => ?_), (fun hb k hk => ?_), ?_, ?_, ?_, ?_, ?_, ?_⟩
  · rw [inMid k hk, ← hmid, hb]
  · rw [inMid k hk, ← hmid, hb]; rfl
  · rw [split', stat, List.lookup_cons]; simp
  · rw [inOwn _ (by decide)]; rfl
  · rw [inOwn _ (by decide)]; rfl
  · rw [inOwn _ (by decide)]; rfl
  · rw [inOwn _ (by decide)]; rfl
  · rw [inOwn _ (by decide)]; rfl

/-- C52: on a fixed buffer, `buffer_chunk_count` equals `buffer_size` iff `buffer_is_full`, iff no
chunk will be handed out any more. -/
theorem C52_full (x : Buffer ε) (hm : x.mode = .fixed) :
    (stat "buffer_chunk_count" x.getStats = stat "buffer_size" x.getStats ↔
      stat "buffer_is_full" x.getStats = some (.bool true)) ∧
    (stat "buffer_is_full" x.getStats = some (.bool true) ↔ ∀ n, (x.getChunk n).2 = .null) := by
  have e1 : stat "buffer_chunk_count" x.getStats = some (.num x.chunkCount) := by
    unfold stat Buffer.getStats; rw [hm]; rfl
  have e2 : stat "buffer_size" x.getStats = some (.num x.size) := by
    unfold stat Buffer.getStats; rw [hm]; rfl
  have e3 : stat "buffer_is_full" x.getStats = some (.bool (decide (x.counter ≥ x.size))) := by
    unfold stat Buffer.getStats Buffer.isFull; rw [hm]; rfl
  rw [e1, e2, e3]
  have hc : x.chunkCount = if x.size > x.counter then x.counter else x.size := by
    unfold Buffer.chunkCount; rw [hm]
  rw [hc]
  constructor
  · simp only [Option.some.injEq, Buffer.StatVal.num.injEq, Buffer.StatVal.bool.injEq, decide_eq_true_eq]
    split <;> omega
  · simp only [Option.some.injEq, Buffer.StatVal.bool.injEq, decide_eq_true_eq]
    unfold Buffer.getChunk Buffer.getChunkFixed
    rw [hm]
    dsimp only
    constructor
    · intro h n
      split
      · rfl
      · rename_i h'; exact absurd h h'
    · intro h
      have := h 0
      split at this
      · assumption
      · cases this

/-- C52: `buffer_total_loaned` counts the loans, in a ring also the calls of `getChunk` waiting
for a chunk. -/
theorem C52_total_partial {l : List (Nat × Choice ε)} (h : (St.init : St ε).run true tid l = .to s) {b : Nat}
    (hb : s.status b ≠ .unborn) :
    stat "buffer_total_loaned" (s.heap b).getStats = some (.num
      (loans true tid b St.init l + (if (s.heap b).mode = .ring then s.waiting b else 0) : Nat)) := by
  have hr := run_reachable .init h
  have hn : b < s.nextBuf := by
    apply Nat.lt_of_not_le; intro hx; exact hb ((hr.ctl.fresh b).2 hx)
  have ht := (Tally.run (b := b) .init Tally.init h).1 hn
  rw [Nat.zero_add] at ht
  unfold stat Buffer.getStats
  by_cases hm : (s.heap b).mode = .ring
  · rw [if_pos hm] at ht ⊢
    rw [hm, ← ht]; rfl
  · rw [if_neg hm] at ht ⊢
    have hc : (s.heap b).chunkCount = min (s.heap b).counter (s.heap b).size := by
      unfold Buffer.chunkCount
      split
      · rename_i h; exact absurd h hm
      · split <;> omega
    rw [Nat.add_zero, ← ht, ← hc]
    cases hx : (s.heap b).mode <;> first | exact absurd hx hm | rfl

/-- C52: `buffer_chunk_count` is the number of chunks that were handed out (the chunks the
buffer's iterators visit). -/
theorem C52_chunk_count (h : Reachable true tid s) (b : Nat) :
    stat "buffer_chunk_count" (s.heap b).getStats = some (.num (s.contents b).length) ∧
    (s.heap b).chunkCount = (s.contents b).length := by
  have hc : (s.heap b).chunkCount = (s.contents b).length := by
    rw [← tagged_length (tid := tid)]; exact (h.data.bufs b).holds.1
  refine ⟨?_, hc⟩
  rw [← hc]
  have ring : (s.heap b).mode = .ring →
      (min ((s.heap b).counter : Int) (s.heap b).size) = ((s.heap b).chunkCount : Int) := by
    intro hm
    unfold Buffer.chunkCount; rw [hm]; dsimp only; split <;> omega
  unfold stat Buffer.getStats
  cases hm : (s.heap b).mode with
  | ring => rw [← ring hm]; rfl
  | _ => rfl

/-- C52: while tracing, `buffer_loaned_chunks` is the number of threads that have a chunk of the
buffer. Missing: after a stop, see `C52_loaned_refuted`. -/
theorem C52_loaned_partial (h : Reachable true tid s) {b : Nat} (hb : s.buffer = some b) (he : s.enabled = true)
    (g n : Nat) :
    stat "buffer_loaned_chunks" (s.getStats g n) =
      some (.num (s.registered.countP (fun u => (s.tenant u).chunk.any (fun c => c.1 == b)))) ∧
    s.registered.Nodup ∧ ∀ u, (s.tenant u).chunk ≠ none → u ∈ s.registered := by
  refine ⟨?_, h.ctl.nodup, fun u hu => (h.ctl.reg u).2 (h.ctl.chunkInit u hu)⟩
  rw [(C52_log_keys s g n).1 b hb _ (by simp [bufferKeys])]
  have := h.loan.on b hb he
  unfold stat Buffer.getStats
  cases (s.heap b).mode <;> simp only [this] <;> rfl

/-- C52 does not hold: after a stop `buffer_loaned_chunks` counts chunks no thread has any more. -/
theorem C52_loaned_refuted : ∃ s : St Nat, Reachable true id s ∧ s.owner = none ∧ s.buffer = some 0 ∧
    stat "buffer_loaned_chunks" (s.getStats 0 0) = some (.num 1) ∧ ∀ u, (s.tenant u).chunk = none := by
  obtain ⟨s, h1, h2⟩ := check_sound (pol := true) (tid := id)
    (l := registers 1 [] ++ starts fixed2 ++ (1, .log 7) :: steps 1 11 ++ locked ((0, .stop false) :: steps 0 4 ++ [(0, .ret)]))
    (p := fun s => decide (s.owner = none ∧ s.buffer = some 0 ∧
      stat "buffer_loaned_chunks" (s.getStats 0 0) = some (.num 1) ∧ s.enabled = false)) (by decide +kernel)
  obtain ⟨h3, h4, h5, h6⟩ := of_decide_eq_true h2
  refine ⟨s, h1, h3, h4, h5, fun u => ?_⟩
  apply Classical.byContradiction
  intro hu
  rcases h1.ctl.comm u (Or.inl hu) with h | h
  · rw [h6] at h; cases h
  · simp [St.pend, h3] at h

/-! ### The log's own numbers -/

theorem Reachable.deregNodup (h : Reachable pol tid s) : s.dereg.Nodup := by
  induction h with
  | init => exact List.nodup_nil
  | @step s s' t c h hs ih =>
    cases next_book hs with
    | calm new hn ha hd => rw [hd]; exact ih
    | free b hb e => subst e; exact ih
    | retrieve cs st hp he e => subst e; exact ih
    | create n st hp e => subst e; exact ih
    | enable st hp e =>
      subst e
      obtain ⟨q, _, e⟩ := pop_goto s.enable t st
      rw [e]; exact ih
    | reg n hp hi e =>
      subst e
      show (s.registerBody tid t n).dereg.Nodup
      unfold St.registerBody
      split
      · exact ih
      · dsimp only; split
        · exact ih
        · exact ih.filter _
    | dereg x hp hi hx e =>
      subst e
      show x.dereg.Nodup
      unfold St.deregisterBody at hx
      rw [if_pos hi] at hx
      split at hx
      · cases hx
      · rename_i y hy
        have hd : y.dereg = s.dereg := by
          unfold St.returnOwn at hy
          split at hy
          · cases hy; rfl
          · split at hy
            · cases hy; rfl
            · split at hy
              · cases hy; rfl
              · cases hy
        dsimp only at hx
        split at hx <;> cases hx
        · show (tid t :: y.dereg.filter (· ≠ tid t)).Nodup
          rw [hd]
          refine List.nodup_cons.2 ⟨?_, ih.filter _⟩
          simp
        · show y.dereg.Nodup
          rw [hd]; exact ih

/-- Distinct numbers satisfying a property that all belong to a list can be listed. -/
theorem exists_list {p : Nat → Prop} (l : List Nat) (h : ∀ i, p i → i ∈ l) :
    ∃ m : List Nat, m.Nodup ∧ ∀ i, i ∈ m ↔ p i := by
  have key : ∀ l : List Nat, ∃ m : List Nat, m.Nodup ∧ ∀ i, i ∈ m ↔ p i ∧ i ∈ l := by
    intro l
    induction l with
    | nil => exact ⟨[], List.nodup_nil, by simp⟩
    | cons a l ih =>
      obtain ⟨m, hm, hi⟩ := ih
      by_cases ha : p a ∧ a ∉ m
      · refine ⟨a :: m, List.nodup_cons.2 ⟨ha.2, hm⟩, fun i => ?_⟩
        rw [List.mem_cons, List.mem_cons, hi]
        constructor
        · rintro (rfl | ⟨h1, h2⟩)
          · exact ⟨ha.1, Or.inl rfl⟩
          · exact ⟨h1, Or.inr h2⟩
        · rintro ⟨h1, rfl | h2⟩
          · exact Or.inl rfl
          · exact Or.inr ⟨h1, h2⟩
      · refine ⟨m, hm, fun i => ?_⟩
        rw [List.mem_cons, hi]
        constructor
        · rintro ⟨h1, h2⟩; exact ⟨h1, Or.inr h2⟩
        · rintro ⟨h1, rfl | h2⟩
          · apply Classical.byContradiction
            intro hc
            exact ha ⟨h1, fun hx => hc ((hi i).1 hx)⟩
          · exact ⟨h1, h2⟩
  obtain ⟨m, h1, h2⟩ := key l
  exact ⟨m, h1, fun i => ⟨fun hi => ((h2 i).1 hi).1, fun hi => (h2 i).2 ⟨hi, h i hi⟩⟩⟩

/-- C52: the log's numbers are the sizes of the sets they stand for: the registered threads, the
thread ids that departed while tracing, the thread ids with a name. -/
theorem C52_log_numbers (h : Reachable pol tid s) :
    s.registered.Nodup ∧ (∀ u, u ∈ s.registered ↔ (s.tenant u).initialised = true) ∧ s.dereg.Nodup ∧
    ∃ named : List Nat, named.Nodup ∧ (∀ i, i ∈ named ↔ s.names i ≠ none) ∧
      ∀ g, stat "log_thread_names" (s.getStats g named.length) = some (.num named.length) := by
  refine ⟨h.ctl0.nodup, h.ctl0.reg, h.deregNodup, ?_⟩
  obtain ⟨m, h1, h2⟩ := exists_list (p := fun i => s.names i ≠ none) (s.dereg ++ s.registered.map tid) (by
    intro i hi
    rcases h.nameOwner i hi with h | ⟨u, hu, rfl⟩
    · exact List.mem_append_left _ h
    · exact List.mem_append_right _ (List.mem_map_of_mem hu))
  exact ⟨m, h1, h2, fun g => (C52_log_keys s g _).2.2.2.2.2.1⟩

/-- A ring of one chunk with one thread that has it and one that waits: two calls, one loan. -/
example : ∃ (l : List (Nat × Choice Nat)) (s : St Nat), (St.init : St Nat).run true id l = .to s ∧
    loans true id 0 St.init l = 1 ∧ s.waiting 0 = 1 ∧
    stat "buffer_total_loaned" (s.getStats 5 0) = some (.num 2) ∧
    stat "buffer_loaned_chunks" (s.getStats 5 0) = some (.num 1) ∧ s.enabled = true := by
  have h : check true id (registers 1 [] ++ registers 2 [] ++ starts ring1 ++ (1, .log 7) :: steps 1 11 ++ (2, .log 8) :: steps 2 9)
    (fun s => decide (s.waiting 0 = 1 ∧
    stat "buffer_total_loaned" (s.getStats 5 0) = some (.num 2) ∧
    stat "buffer_loaned_chunks" (s.getStats 5 0) = some (.num 1) ∧ s.enabled = true)) = true := by decide +kernel
  unfold check at h
  split at h
  · rename_i s hs
    obtain ⟨h1, h2, h3, h4⟩ := of_decide_eq_true h
    exact ⟨_, s, hs, by decide +kernel, h1, h2, h3, h4⟩
  · cases h

/-- A full fixed buffer. -/
example : stat "buffer_is_full" ((Buffer.makeFixed 3 1 : Buffer Nat).getChunk 9).1.getStats = some (.bool true) ∧
    stat "buffer_chunk_count" ((Buffer.makeFixed 3 1 : Buffer Nat).getChunk 9).1.getStats = some (.num 1) ∧
    stat "buffer_generation" ((Buffer.makeFixed 3 1 : Buffer Nat).getChunk 9).1.getStats = some (.num 3) := by
  decide +kernel

end Phosphor.TLog
