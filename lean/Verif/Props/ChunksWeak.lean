import Verif.Props.StopWeak
/-
C105: what chunks hold under the memory orders of the source. Model/TraceLogWeak says which thread
accesses which location when; here the two kinds of accesses that change what a chunk holds, `reset`
(trace_buffer.cc:116, trace_buffer.cc:219) and the storing of an event (trace_log.cc:132,
trace_log.cc:146-147), are written down as they happen. C65 says that no two of them race, so that
this order is also the one every thread that may read the chunk knows.
-/
namespace Phosphor.TLog.W
open Phosphor.Weak

/-- A change to a chunk: thread `t` empties it, or adds an event to it.
Code: `src/trace_buffer.cc:29-33,116,219` (`TraceChunk::reset`), `src/trace_buffer.cc:42-50`,
`src/trace_log.cc:132,146` (`addEvent`). -/
inductive Change
  | reset (t : Nat) (c : Chunk)
  | store (t : Nat) (c : Chunk)
  deriving DecidableEq

/-- The chunk that is changed. -/
def Change.chunk : Change → Chunk
  | .reset _ c => c
  | .store _ c => c

/-- Empties chunk `c`. -/
def Change.empties (c : Chunk) : Change → Bool
  | .reset _ d => d == c
  | .store _ _ => false

/-- Adds an event to chunk `c`. -/
def Change.adds (c : Chunk) : Change → Bool
  | .reset _ _ => false
  | .store _ d => d == c

/-- An execution with the changes made to chunks, the latest first. The steps are those of
`Model/TraceLogWeak`; only the two that change a chunk are recorded.
Code: `src/trace_buffer.cc:29-50,116,219`, `src/trace_log.cc:132,146`. -/
inductive Run : St → List Change → St → Prop
  | refl {w} : Run w [] w
  | reset {w L w' t c} : Run w L w' → w'.pc t = .reset c →
      Run w (.reset t c :: L) (w'.goto t (.setChunk c) (w'.mem.write t (.cell c.1 c.2)))
  | store {w L w' t c} : Run w L w' → w'.pc t = .write → w'.tc t = some c →
      Run w (.store t c :: L) (w'.goto t .unlock ((w'.mem.read t (.tc t)).write t (.cell c.1 c.2)))
  | other {w L w' w''} : Run w L w' → Step true w' w'' →
      (∀ t, w'.pc t = .write → w''.pc t = .write) → (∀ t c, w'.pc t = .reset c → w''.pc t = .reset c) →
      Run w L w''

/-- The changes to `c` since it was last emptied, that is, the events it holds, the latest first. -/
def heldIn (L : List Change) (c : Chunk) : List Change :=
  (L.takeWhile fun x => !x.empties c).filter (·.adds c)

/-- The thread that emptied `c` last. -/
def owner (L : List Change) (c : Chunk) : Option Nat :=
  L.findSome? fun x => match x with
    | .reset t d => if d = c then some t else none
    | .store _ _ => none

theorem Run.reachable {w w' : St} {L : List Change} (h : Reachable true w) (r : Run w L w') : Reachable true w' := by
  induction r with
  | refl => exact h
  | reset _ hq ih => exact (ih).step (.reset hq)
  | store _ hq hc ih => exact (ih).step (.write hq hc)
  | other _ hs _ _ ih => exact (ih).step hs

/-- Another thread's program counter. -/
theorem pc_other {w : St} {t : Nat} {p : Pc} {μ : Mem Loc Nat Plain} {u : Nat} (hu : u ≠ t) :
    (w.goto t p μ).pc u = w.pc u := setf_ne _ _ hu

/-- Every execution has its changes. -/
theorem run_of_step {w w' w'' : St} {L : List Change} (r : Run w L w') (hs : Step true w' w'') :
    ∃ L', Run w (L' ++ L) w'' := by
  have hs' := hs
  cases hs with
  | reset hq => exact ⟨[_], r.reset hq⟩
  | write hq hc => exact ⟨[_], r.store hq hc⟩
  | _ =>
    refine ⟨[], r.other hs' (fun x hx => ?_) (fun x c hx => ?_)⟩ <;>
    first
    | exact hx
    | (show setf w'.pc _ _ x = _
       rw [setf_ne _ _ (by rintro rfl; simp_all)]; exact hx)

/-- The chunk a thread at `p` has, whose `thread_chunk` is `o`.
Code: `src/trace_log.cc:301-309`. -/
def chunkAt (p : Pc) (o : Option Chunk) : Option Chunk :=
  match p with
  | .clear => none
  | .dClear _ => none
  | .reset c => some c
  | .setChunk c => some c
  | _ => o

theorem held_at (w : St) (x : Nat) : held w x = chunkAt (w.pc x) (w.tc x) := by
  unfold held chunkAt; cases w.pc x <;> rfl

theorem held_move {w w' : St} {t : Nat} {p : Pc} {x : Nat} {c : Chunk} (hc : held w' x = some c)
    (h1 : w'.pc = setf w.pc t p) (h2 : ∀ y, y ≠ t → w'.tc y = w.tc y)
    (H : chunkAt p (w'.tc t) = some c → chunkAt (w.pc t) (w.tc t) = some c) : held w x = some c := by
  rw [held_at] at hc ⊢
  by_cases e : x = t
  · subst e; rw [h1, setf_self] at hc; exact H hc
  · rw [h1, setf_ne _ _ e, h2 x e] at hc; exact hc

/-- The chunk of a thread that may store events in it: it has been reset. -/
theorem step_held {w w' : St} (hs : Step true w w') (hw : ∀ t, w.pc t = .write → w'.pc t = .write)
    (hr : ∀ t c, w.pc t = .reset c → w'.pc t = .reset c) {x : Nat} {c : Chunk}
    (hc : held w' x = some c) (hx : ∀ d, w'.pc x ≠ .reset d) : held w x = some c ∧ ∀ d, w.pc x ≠ .reset d := by
  refine ⟨?_, fun d hd => hx d (hr x d hd)⟩
  cases hs with
  | other | extLoad | extStore | ownRead | ownGive | ownFree => exact hc
  | @reset t d hq =>
    have := hr t d hq
    rw [show (w.goto t (.setChunk d) _).pc t = _ from setf_self _ _ _] at this; cases this
  | @write t d hq _ =>
    have := hw t hq
    rw [show (w.goto t .unlock _).pc t = _ from setf_self _ _ _] at this; cases this
  | @evClear t k d u hq =>
    rw [held_at] at hc ⊢
    by_cases e : x = t
    · subst e
      by_cases e' : x = u
      · subst e'; simp [chunkAt, St.goto, setf] at hc
      · simpa [chunkAt, St.goto, setf, hq, e'] using hc
    · by_cases e' : x = u
      · subst e'
        simp only [St.goto, setf, if_neg e, if_true] at hc ⊢
        cases hp : w.pc x <;> rw [hp] at hc <;> simp_all [chunkAt]
      · simpa [chunkAt, St.goto, setf, e, e'] using hc
  | @fresh t h hq _ =>
    by_cases e : x = t
    · subst e; exact absurd (setf_self _ _ _) (hx _)
    · rw [held_at] at hc ⊢; simpa [St.goto, setf, e] using hc
  | @reuse t h b1 b2 d v hq _ _ =>
    by_cases e : x = t
    · subst e; exact absurd (setf_self _ _ _) (hx _)
    · rw [held_at] at hc ⊢; simpa [St.goto, setf, e] using hc
  | clear hq | setChunk hq | dClear hq =>
    refine held_move hc rfl (fun y hy => setf_ne _ _ hy) (fun h => ?_)
    clear hw hr hx hc
    simp_all [chunkAt, setf]
  | @exchangeOff _ k _ _ _ hq =>
    refine held_move hc rfl (fun _ _ => rfl) (fun h => ?_)
    clear hw hr hx hc
    cases k <;> simp_all [chunkAt, St.goto]
  | newBuf _ _ hq =>
    exact held_move hc rfl (fun _ _ => rfl) (fun h => by clear hw hr hx hc; simp_all [chunkAt, St.goto])
  | _ => exact held_move hc rfl (fun _ _ => rfl) (fun h => by clear hw hr hx hc; simp_all [chunkAt, St.goto])

theorem owner_skip {L : List Change} {x : Change} {c : Chunk} (h : x.empties c = false) :
    owner (x :: L) c = owner L c := by
  unfold owner
  rw [List.findSome?_cons]
  cases x with
  | store => rfl
  | reset t d =>
    have : d ≠ c := by simpa [Change.empties] using h
    simp [this]

theorem owner_reset (L : List Change) (t : Nat) (c : Chunk) : owner (.reset t c :: L) c = some t := by
  simp [owner]

theorem owner_exists {L : List Change} {c : Chunk} {t : Nat} (h : owner L c = some t) : .reset t c ∈ L := by
  unfold owner at h
  obtain ⟨l1, a, l2, e, ha, -⟩ := List.findSome?_eq_some_iff.1 h
  rw [e]
  cases a with
  | store => cases ha
  | reset u d =>
    by_cases hd : d = c
    · simp only [hd, if_true, Option.some.injEq] at ha
      subst ha; subst hd; simp
    · simp [hd] at ha

theorem held_init (x : Nat) : held St.init x = none := rfl

/-- A thread that has a chunk it can store events in has emptied it, and nobody has since. -/
theorem owner_held {L : List Change} {w : St} (r : Run St.init L w) {x : Nat} {c : Chunk}
    (hc : held w x = some c) (hx : ∀ d, w.pc x ≠ .reset d) : owner L c = some x := by
  induction r generalizing x c with
  | refl => rw [held_init] at hc; cases hc
  | @reset L w t d r hq ih =>
    by_cases e : x = t
    · subst e
      rw [held_at, show (w.goto x _ _).pc x = _ from setf_self _ _ _] at hc
      cases hc
      exact owner_reset _ _ _
    · have hp : (w.goto t (.setChunk d) (w.mem.write t (.cell d.1 d.2))).pc x = w.pc x := setf_ne _ _ e
      have hh : held w x = some c := by rw [held_at] at hc ⊢; rw [hp] at hc; exact hc
      have hd : held w t = some d := by rw [held_at, hq]; rfl
      obtain ⟨g, hg⟩ := inv_reachable (Run.reachable .init r)
      rw [owner_skip]
      · exact ih hh (fun d hd => hx d (by rw [hp]; exact hd))
      · cases hc' : (Change.reset t d).empties c with
        | false => rfl
        | true =>
          have : d = c := by simpa [Change.empties] using hc'
          subst this
          exact absurd (hg.heldInj x t d hh hd) e
  | @store L w t d r hq hd ih =>
    rw [owner_skip rfl]
    by_cases e : x = t
    · subst e
      refine ih ?_ (fun d hd => by rw [hq] at hd; cases hd)
      rw [held_at, show (w.goto x _ _).pc x = _ from setf_self _ _ _] at hc
      rw [held_at, hq]; exact hc
    · have hp : (w.goto t .unlock ((w.mem.read t (.tc t)).write t (.cell d.1 d.2))).pc x = w.pc x := setf_ne _ _ e
      refine ih ?_ (fun d hd => hx d (by rw [hp]; exact hd))
      rw [held_at] at hc ⊢; rw [hp] at hc; exact hc
  | other r hs hw hr ih =>
    obtain ⟨h1, h2⟩ := step_held hs hw hr hc hx
    exact ih h1 h2

/-- C105: an event is stored only in a chunk that the thread itself has emptied and that no thread
has emptied since. -/
theorem C105_own {L A B : List Change} {w : St} {t : Nat} {c : Chunk} (r : Run St.init L w)
    (hL : L = A ++ .store t c :: B) : owner B c = some t := by
  induction r generalizing A with
  | refl => simp at hL
  | reset _ _ ih =>
    cases A with
    | nil => injection hL with h1; cases h1
    | cons a A => injection hL with _ h2; exact ih h2
  | @store L w u d r hq hd ih =>
    cases A with
    | nil =>
      injection hL with h1 h2
      cases h1; subst h2
      exact owner_held r (by rw [held_at, hq]; exact hd) (fun d hd => by rw [hq] at hd; cases hd)
    | cons a A => injection hL with _ h2; exact ih h2
  | other _ _ _ _ ih => exact ih hL

theorem owner_append {A B : List Change} {c : Chunk} (h : ∀ x ∈ A, x.empties c = false) :
    owner (A ++ B) c = owner B c := by
  induction A with
  | nil => rfl
  | cons a A ih =>
    rw [List.cons_append, owner_skip (h a (by simp))]
    exact ih fun x hx => h x (by simp [hx])

theorem mem_takeWhile_true {α : Type} {p : α → Bool} {l : List α} {a : α} (h : a ∈ l.takeWhile p) : p a = true := by
  induction l with
  | nil => cases h
  | cons b l ih =>
    rw [List.takeWhile_cons] at h
    split at h
    · rcases List.mem_cons.1 h with rfl | h
      · assumption
      · exact ih h
    · cases h

/-- Thread `t` emptied chunk `c`; it has emptied no chunk since, and nobody has emptied `c`. -/
def Since (L : List Change) (t : Nat) (c : Chunk) : Prop :=
  ∃ M B, L = M ++ .reset t c :: B ∧ (∀ d, .reset t d ∉ M) ∧ ∀ u, .reset u c ∉ M

theorem Since.skip {L : List Change} {t : Nat} {c : Chunk} {x : Change} (h : Since L t c)
    (h1 : ∀ d, x ≠ .reset t d) (h2 : ∀ u, x ≠ .reset u c) : Since (x :: L) t c := by
  obtain ⟨M, B, e, m1, m2⟩ := h
  refine ⟨x :: M, B, by rw [e]; rfl, fun d hd => ?_, fun u hu => ?_⟩
  · rcases List.mem_cons.1 hd with hd | hd
    · exact h1 d hd.symm
    · exact m1 d hd
  · rcases List.mem_cons.1 hu with hu | hu
    · exact h2 u hu.symm
    · exact m2 u hu

theorem since_held {L : List Change} {w : St} (r : Run St.init L w) {x : Nat} {c : Chunk}
    (hc : held w x = some c) (hx : ∀ d, w.pc x ≠ .reset d) : Since L x c := by
  induction r generalizing x c with
  | refl => rw [held_init] at hc; cases hc
  | @reset L w t d r hq ih =>
    by_cases e : x = t
    · subst e
      rw [held_at, show (w.goto x _ _).pc x = _ from setf_self _ _ _] at hc
      cases hc
      exact ⟨[], L, rfl, by simp, by simp⟩
    · have hp : (w.goto t (.setChunk d) (w.mem.write t (.cell d.1 d.2))).pc x = w.pc x := setf_ne _ _ e
      have hh : held w x = some c := by rw [held_at] at hc ⊢; rw [hp] at hc; exact hc
      have hd : held w t = some d := by rw [held_at, hq]; rfl
      obtain ⟨g, hg⟩ := inv_reachable (Run.reachable .init r)
      refine (ih hh (fun d hd => hx d (by rw [hp]; exact hd))).skip (fun d' h => ?_) (fun u h => ?_)
      · cases h; exact e rfl
      · cases h; exact e (hg.heldInj x _ _ hh hd)
  | @store L w t d r hq hd ih =>
    refine Since.skip ?_ (fun _ h => by cases h) (fun _ h => by cases h)
    by_cases e : x = t
    · subst e
      refine ih ?_ (fun d hd => by rw [hq] at hd; cases hd)
      rw [held_at, show (w.goto x _ _).pc x = _ from setf_self _ _ _] at hc
      rw [held_at, hq]; exact hc
    · have hp : (w.goto t .unlock ((w.mem.read t (.tc t)).write t (.cell d.1 d.2))).pc x = w.pc x := setf_ne _ _ e
      refine ih ?_ (fun d hd => hx d (by rw [hp]; exact hd))
      rw [held_at] at hc ⊢; rw [hp] at hc; exact hc
  | other r hs hw hr ih =>
    obtain ⟨h1, h2⟩ := step_held hs hw hr hc hx
    exact ih h1 h2

/-- C105: before a thread stores an event in a chunk it emptied that chunk; from then on until it
stores the event it empties no other, and no thread empties that one. So all events a thread stores
between taking one chunk and the next are in the one chunk, and the events of a chunk are a block of
the events of the thread. -/
theorem C105_block {L A B : List Change} {w : St} {t : Nat} {c : Chunk} (r : Run St.init L w)
    (hL : L = A ++ .store t c :: B) :
    ∃ M B', B = M ++ .reset t c :: B' ∧ (∀ d, .reset t d ∉ M) ∧ ∀ u, .reset u c ∉ M := by
  induction r generalizing A with
  | refl => simp at hL
  | reset _ _ ih =>
    cases A with
    | nil => injection hL with h1; cases h1
    | cons a A => injection hL with _ h2; exact ih h2
  | @store L w u d r hq hd ih =>
    cases A with
    | nil =>
      injection hL with h1 h2
      cases h1; subst h2
      exact since_held r (by rw [held_at, hq]; exact hd) (fun d hd => by rw [hq] at hd; cases hd)
    | cons a A => injection hL with _ h2; exact ih h2
  | other _ _ _ _ ih => exact ih hL

/-- C105: the events a chunk holds are events of one thread, the one that emptied it last. -/
theorem C105_one_thread {L : List Change} {w : St} (r : Run St.init L w) {c : Chunk} {x : Change}
    (hx : x ∈ heldIn L c) : ∃ t, x = .store t c ∧ owner L c = some t := by
  obtain ⟨hx, ha⟩ := List.mem_filter.1 hx
  cases x with
  | reset => cases ha
  | store t d =>
    have : d = c := by simpa [Change.adds] using ha
    subst this
    refine ⟨t, rfl, ?_⟩
    obtain ⟨A, B, e⟩ := List.append_of_mem hx
    have hL : L = A ++ .store t d :: (B ++ L.dropWhile fun x => !x.empties d) := by
      have := List.takeWhile_append_dropWhile (p := fun x : Change => !x.empties d) (l := L)
      rw [e] at this
      simpa using this.symm
    have h1 := C105_own r hL
    have hA : ∀ y ∈ A, y.empties d = false := by
      intro y hy
      have : y ∈ L.takeWhile fun x => !x.empties d := by rw [e]; simp [hy]
      simpa using mem_takeWhile_true this
    rw [hL, owner_append hA, owner_skip rfl]; exact h1

/-- C105: a buffer that is no longer the log's changes no more: nobody empties a chunk of it or
stores an event in it, whatever `enabled` a thread still reads. -/
theorem C105_final {w w' : St} (h : Reachable true w) {L : List Change} (r : Run w L w') {b : Nat}
    (hb : b < w.cnt) (hn : w.buf ≠ some b) (x : Change) (hx : x ∈ L) : x.chunk.1 ≠ b := by
  have key : (b < w'.cnt ∧ w'.buf ≠ some b) ∧ ∀ x ∈ L, x.chunk.1 ≠ b := by
    clear hx x
    induction r with
    | refl => exact ⟨⟨hb, hn⟩, by simp⟩
    | @reset L w1 t c r hq ih =>
      obtain ⟨i1, i2⟩ := ih
      refine ⟨i1, fun x hx => ?_⟩
      rcases List.mem_cons.1 hx with rfl | hx
      · obtain ⟨g, hg⟩ := inv_reachable (Run.reachable h r)
        have := (hg.heldOk t c (by rw [held_at, hq]; rfl)).1
        intro e
        have e : c.1 = b := e
        rw [e] at this
        exact i1.2 this
      · exact i2 x hx
    | @store L w1 t c r hq hd ih =>
      obtain ⟨i1, i2⟩ := ih
      refine ⟨i1, fun x hx => ?_⟩
      rcases List.mem_cons.1 hx with rfl | hx
      · obtain ⟨g, hg⟩ := inv_reachable (Run.reachable h r)
        have := (hg.heldOk t c (by rw [held_at, hq]; exact hd)).1
        intro e
        have e : c.1 = b := e
        rw [e] at this
        exact i1.2 this
      · exact i2 x hx
    | @other L w1 w2 r hs _ _ ih =>
      obtain ⟨⟨i1, i3⟩, i2⟩ := ih
      refine ⟨?_, i2⟩
      cases hs with
      | newBuf =>
        refine ⟨Nat.lt_succ_of_lt i1, fun e => ?_⟩
        have e : some w1.cnt = some b := e
        injection e with e
        omega
      | take => exact ⟨i1, fun e => by cases e⟩
      | _ => exact ⟨i1, i3⟩
  exact key.2 x hx

/-- What holds of the chunks of buffers that are not rings. -/
structure Fix (L : List Change) (w : St) : Prop where
  lt : ∀ x ∈ L, x.chunk.1 < w.cnt
  bag : ∀ b, (w.bufs b).ring = false → (w.bufs b).bag = []
  new : ∀ b i, (w.bufs b).ring = false → (w.bufs b).next ≤ i → L.countP (·.empties (b, i)) = 0
  here : ∀ t b i, (w.bufs b).ring = false → w.pc t = .reset (b, i) → L.countP (·.empties (b, i)) = 0
  once : ∀ c : Chunk, (w.bufs c.1).ring = false → L.countP (·.empties c) ≤ 1

theorem Fix.none {L : List Change} {w : St} (h : Fix L w) {b : Nat} (hb : w.cnt ≤ b) (i : Nat) :
    L.countP (·.empties (b, i)) = 0 := by
  rw [List.countP_eq_zero]
  intro x hx he
  cases x with
  | store => cases he
  | reset t d =>
    have h1 := h.lt _ hx
    have h2 : d = (b, i) := by simpa [Change.empties] using he
    subst h2
    exact absurd h1 (by show ¬ b < w.cnt; omega)

/-- Steps that change no buffer and bring no thread to `reset`. -/
theorem Fix.same {L : List Change} {w w' : St} (h : Fix L w) (h1 : w'.bufs = w.bufs) (h2 : w'.cnt = w.cnt)
    (h3 : ∀ t c, w'.pc t = .reset c → w.pc t = .reset c) : Fix L w' where
  lt := by rw [h2]; exact h.lt
  bag := by rw [h1]; exact h.bag
  new := by rw [h1]; exact h.new
  here := by rw [h1]; exact fun t b i hr hq => h.here t b i hr (h3 _ _ hq)
  once := by rw [h1]; exact h.once

theorem Fix.giveBack {L : List Change} {w w' : St} (h : Fix L w) {t b : Nat} {c : Chunk}
    (h1 : w'.bufs = w.giveBack t b c) (h2 : w'.cnt = w.cnt)
    (h3 : ∀ t c, w'.pc t = .reset c → w.pc t = .reset c) : Fix L w' := by
  have hr : ∀ x, (w'.bufs x).ring = (w.bufs x).ring := by
    intro x; rw [h1]; unfold St.giveBack
    by_cases e : x = b
    · subst e; rw [setf_self]
    · rw [setf_ne _ _ e]
  have hn : ∀ x, (w'.bufs x).next = (w.bufs x).next := by
    intro x; rw [h1]; unfold St.giveBack
    by_cases e : x = b
    · subst e; rw [setf_self]
    · rw [setf_ne _ _ e]
  refine ⟨by rw [h2]; exact h.lt, fun x hx => ?_, fun x i hx hi => ?_, fun u x i hx hq => ?_, fun c hx => ?_⟩
  · rw [hr] at hx
    rw [h1]; unfold St.giveBack
    by_cases e : x = b
    · subst e; rw [setf_self]; simp only [hx]; exact h.bag _ hx
    · rw [setf_ne _ _ e]; exact h.bag _ hx
  · rw [hr] at hx; rw [hn] at hi; exact h.new x i hx hi
  · rw [hr] at hx; exact h.here u x i hx (h3 _ _ hq)
  · rw [hr] at hx; exact h.once c hx

theorem setf_pc {w : St} {t : Nat} {p : Pc} (h : ∀ c, p ≠ .reset c) (u : Nat) (c : Chunk)
    (hq : setf w.pc t p u = .reset c) : w.pc u = .reset c := by
  by_cases e : u = t
  · subst e; rw [setf_self] at hq; exact absurd hq (h c)
  · rw [setf_ne _ _ e] at hq; exact hq

theorem fix_run {L : List Change} {w : St} (r : Run St.init L w) : Fix L w := by
  induction r with
  | refl => exact ⟨by simp, fun _ _ => rfl, by simp, by simp, by simp⟩
  | @reset L w t d r hq ih =>
    obtain ⟨g, hg⟩ := inv_reachable (Run.reachable .init r)
    have hd : held w t = some d := by rw [held_at, hq]; rfl
    have hok := hg.heldOk t d hd
    have hlt := (hg.bufOk _ hok.1).2
    have cnt : ∀ c : Chunk, c ≠ d →
        (Change.reset t d :: L).countP (·.empties c) = L.countP (·.empties c) := by
      intro c hc
      rw [List.countP_cons_of_neg]
      simp only [Change.empties, beq_iff_eq]
      exact fun e => hc e.symm
    refine ⟨fun x hx => ?_, ih.bag, fun b i hr hi => ?_, fun u b i hr hu => ?_, fun c hr => ?_⟩
    · rcases List.mem_cons.1 hx with rfl | hx
      · exact hlt
      · exact ih.lt x hx
    · rw [cnt _ (by rintro rfl; exact absurd hok.2.1 (Nat.not_lt.2 hi))]
      exact ih.new b i hr hi
    · have hu' := setf_pc (fun c => by simp) _ _ hu
      have hb : held w u = some (b, i) := by rw [held_at, hu']; rfl
      rw [cnt]
      · exact ih.here u b i hr hu'
      · rintro rfl
        have := hg.heldInj u t _ hb hd
        subst this
        have hu : setf w.pc u (.setChunk (b, i)) u = .reset (b, i) := hu
        rw [setf_self] at hu; cases hu
    · by_cases e : c = d
      · subst e
        rw [List.countP_cons]
        have := ih.here t c.1 c.2 hr hq
        rw [show ((c.1, c.2) : Chunk) = c from rfl] at this
        rw [this]; split <;> omega
      · rw [cnt c e]; exact ih.once c hr
  | @store L w t d r hq hd ih =>
    obtain ⟨g, hg⟩ := inv_reachable (Run.reachable .init r)
    have hok := hg.heldOk t d (by rw [held_at, hq]; exact hd)
    have hlt := (hg.bufOk _ hok.1).2
    have cnt : ∀ c : Chunk, (Change.store t d :: L).countP (·.empties c) = L.countP (·.empties c) :=
      fun c => List.countP_cons_of_neg (by simp [Change.empties])
    refine ⟨fun x hx => ?_, ih.bag, fun b i hr hi => ?_, fun u b i hr hu => ?_, fun c hr => ?_⟩
    · rcases List.mem_cons.1 hx with rfl | hx
      · exact hlt
      · exact ih.lt x hx
    · rw [cnt]; exact ih.new b i hr hi
    · rw [cnt]; exact ih.here u b i hr (setf_pc (fun c => by simp) _ _ hu)
    · rw [cnt]; exact ih.once c hr
  | @other L w w' r hs hw hr ih =>
    cases hs with
    | other | extLoad | extStore | ownRead | ownGive | ownFree => exact ih.same rfl rfl (fun _ _ h => h)
    | @fresh t b hq hn =>
      have e1 : ∀ x, (setf w.bufs b { w.bufs b with next := (w.bufs b).next + 1 } x).ring = (w.bufs x).ring ∧
          (setf w.bufs b { w.bufs b with next := (w.bufs b).next + 1 } x).bag = (w.bufs x).bag ∧
          (w.bufs x).next ≤ (setf w.bufs b { w.bufs b with next := (w.bufs b).next + 1 } x).next := by
        intro x
        by_cases e : x = b
        · subst e; rw [setf_self]; exact ⟨rfl, rfl, Nat.le_succ _⟩
        · rw [setf_ne _ _ e]; exact ⟨rfl, rfl, Nat.le_refl _⟩
      refine ⟨ih.lt, fun x hx => ?_, fun x i hx hi => ?_, fun u x i hx hu => ?_, fun c hx => ?_⟩
      · exact (e1 x).2.1.trans (ih.bag x ((e1 x).1.symm.trans hx))
      · exact ih.new x i ((e1 x).1.symm.trans hx) (Nat.le_trans (e1 x).2.2 hi)
      · have hx' := (e1 x).1.symm.trans hx
        have hu : setf w.pc t (.reset (b, (w.bufs b).next)) u = .reset (x, i) := hu
        by_cases e : u = t
        · subst e; rw [setf_self] at hu
          injection hu with hu; injection hu with h1 h2
          subst h1; subst h2
          exact ih.new _ _ hx' (Nat.le_refl _)
        · rw [setf_ne _ _ e] at hu; exact ih.here u x i hx' hu
      · exact ih.once c ((e1 c.1).1.symm.trans hx)
    | @reuse t b b1 b2 d v hq hring hb =>
      have e1 : ∀ x, (setf w.bufs b { w.bufs b with bag := b1 ++ b2 } x).ring = (w.bufs x).ring ∧
          (setf w.bufs b { w.bufs b with bag := b1 ++ b2 } x).next = (w.bufs x).next ∧
          ((w.bufs x).ring = false → setf w.bufs b { w.bufs b with bag := b1 ++ b2 } x = w.bufs x) := by
        intro x
        by_cases e : x = b
        · subst e; rw [setf_self]; exact ⟨rfl, rfl, fun h => by rw [hring] at h; cases h⟩
        · rw [setf_ne _ _ e]; exact ⟨rfl, rfl, fun _ => rfl⟩
      obtain ⟨g, hg⟩ := inv_reachable (Run.reachable .init r)
      have hbuf := (hg.here hq).2.2
      have hd1 := (hg.bagOk b hbuf d v (by rw [hb]; simp)).1
      refine ⟨ih.lt, fun x hx => ?_, fun x i hx hi => ?_, fun u x i hx hu => ?_, fun c hx => ?_⟩
      · have hx' := (e1 x).1.symm.trans hx
        exact (congrArg Buf.bag ((e1 x).2.2 hx')).trans (ih.bag x hx')
      · have hi : (setf w.bufs b { w.bufs b with bag := b1 ++ b2 } x).next ≤ i := hi
        rw [(e1 x).2.1] at hi
        exact ih.new x i ((e1 x).1.symm.trans hx) hi
      · have hx' := (e1 x).1.symm.trans hx
        have hu : setf w.pc t (.reset d) u = .reset (x, i) := hu
        by_cases e : u = t
        · subst e; rw [setf_self] at hu
          injection hu with hu
          rw [hu] at hd1
          have hd1 : x = b := hd1
          rw [hd1, hring] at hx'; cases hx'
        · rw [setf_ne _ _ e] at hu; exact ih.here u x i hx' hu
      · exact ih.once c ((e1 c.1).1.symm.trans hx)
    | giveBack => exact ih.giveBack rfl rfl (setf_pc (fun c => by simp))
    | dReturn => exact ih.giveBack rfl rfl (setf_pc (fun c => by simp))
    | @newBuf t d ring size hq =>
      have e1 : ∀ x, x ≠ w.cnt → setf w.bufs w.cnt ⟨ring, size, 0, []⟩ x = w.bufs x := fun x hx => setf_ne _ _ hx
      refine ⟨fun x hx => Nat.lt_succ_of_lt (ih.lt x hx), fun x hx => ?_, fun x i hx hi => ?_, fun u x i hx hu => ?_,
        fun c hx => ?_⟩
      · by_cases e : x = w.cnt
        · show (setf w.bufs w.cnt ⟨ring, size, 0, []⟩ x).bag = []
          rw [e, setf_self]
        · have hx : (setf w.bufs w.cnt ⟨ring, size, 0, []⟩ x).ring = false := hx
          show (setf w.bufs w.cnt ⟨ring, size, 0, []⟩ x).bag = []
          rw [e1 x e] at hx ⊢; exact ih.bag x hx
      · by_cases e : x = w.cnt
        · exact ih.none (Nat.le_of_eq e.symm) i
        · have hx : (setf w.bufs w.cnt ⟨ring, size, 0, []⟩ x).ring = false := hx
          have hi : (setf w.bufs w.cnt ⟨ring, size, 0, []⟩ x).next ≤ i := hi
          rw [e1 x e] at hx hi; exact ih.new x i hx hi
      · by_cases e : x = w.cnt
        · exact ih.none (Nat.le_of_eq e.symm) i
        · have hx : (setf w.bufs w.cnt ⟨ring, size, 0, []⟩ x).ring = false := hx
          rw [e1 x e] at hx
          exact ih.here u x i hx (setf_pc (fun c => by simp) _ _ hu)
      · by_cases e : c.1 = w.cnt
        · have := ih.none (Nat.le_of_eq e.symm) c.2
          rw [show ((c.1, c.2) : Chunk) = c from rfl] at this
          omega
        · have hx : (setf w.bufs w.cnt ⟨ring, size, 0, []⟩ c.1).ring = false := hx
          rw [e1 _ e] at hx; exact ih.once c hx
    | @exchangeOff t k d ts m hq =>
      exact ih.same rfl rfl (setf_pc (fun c => by cases k <;> simp))
    | @reset t d hq =>
      have := hr t d hq
      rw [show (w.goto t (.setChunk d) _).pc t = _ from setf_self _ _ _] at this; cases this
    | _ => exact ih.same rfl rfl (setf_pc (fun c => by simp))

theorem takeWhile_filter {α : Type} {p q : α → Bool} : ∀ {L : List α}, L.countP p ≤ 1 →
    (∀ x, q x = true → p x = false) → (∀ A x B, L = A ++ x :: B → q x = true → ∃ y ∈ B, p y = true) →
    (L.takeWhile fun x => !p x).filter q = L.filter q
  | [], _, _, _ => rfl
  | a :: L, h1, h2, h3 => by
    have h3' : ∀ A x B, L = A ++ x :: B → q x = true → ∃ y ∈ B, p y = true :=
      fun A x B e hx => h3 (a :: A) x B (by rw [e]; rfl) hx
    cases hp : p a with
    | false =>
      rw [List.takeWhile_cons, hp]
      simp only [Bool.not_false, if_true, List.filter_cons]
      rw [List.countP_cons_of_neg (by simp [hp])] at h1
      rw [takeWhile_filter h1 h2 h3']
    | true =>
      rw [List.takeWhile_cons, hp]
      simp only [Bool.not_true, Bool.false_eq_true, if_false, List.filter_nil]
      have hq : q a = false := by
        cases hq : q a with
        | false => rfl
        | true => rw [h2 a hq] at hp; cases hp
      rw [List.filter_cons, hq]
      rw [List.countP_cons_of_pos hp] at h1
      simp only [Bool.false_eq_true, if_false]
      symm
      rw [List.filter_eq_nil_iff]
      intro x hx hqx
      obtain ⟨A, B, e⟩ := List.append_of_mem hx
      obtain ⟨y, hy, hpy⟩ := h3' A x B e hqx
      have : 0 < L.countP p := List.countP_pos_iff.2 ⟨y, by rw [e]; simp [hy], hpy⟩
      omega

/-- C105: a chunk of a buffer that is not a ring is emptied at most once, and it holds every event that
was ever stored in it: under the memory orders of the source no event in a fixed buffer is lost or
overwritten. -/
theorem C105_fixed {L : List Change} {w : St} (r : Run St.init L w) {c : Chunk}
    (hf : (w.bufs c.1).ring = false) :
    L.countP (·.empties c) ≤ 1 ∧ heldIn L c = L.filter (·.adds c) := by
  have h1 := (fix_run r).once c hf
  refine ⟨h1, takeWhile_filter h1 ?_ ?_⟩
  · intro x hx
    cases x with
    | reset => cases hx
    | store => rfl
  · intro A x B e hx
    cases x with
    | reset => cases hx
    | store t d =>
      have : d = c := by simpa [Change.adds] using hx
      subst this
      exact ⟨_, owner_exists (C105_own r e), by simp [Change.empties]⟩

/-! ### Cases that meet the hypotheses -/

/-- Some execution leads from the one to the other. -/
structure Leads (w w' : St) : Prop where
  run : ∃ L, Run w L w'

theorem Leads.step {w w' w'' : St} (h : Leads w w') (hs : Step true w' w'') : Leads w w'' := by
  obtain ⟨L, r⟩ := h
  obtain ⟨L', r⟩ := run_of_step r hs
  exact ⟨_, r⟩

theorem leads_reachable {w : St} (h : Reachable true w) : Leads St.init w := by
  induction h with
  | init => exact ⟨_, .refl⟩
  | step _ hs ih => exact ih.step hs

/-- Thread 1 is about to store an event in a fixed buffer. -/
theorem exFixed : ∃ w : St, Reachable true w ∧ w.pc 1 = .write ∧ w.tc 1 = some (0, 0) ∧
    (w.bufs 0).ring = false := by
  have r := Reachable.init (pol := true)
  have r := r.step (.lockM (t := 0) rfl rfl)
  have r := r.step (.start (t := 0) rfl (fun _ => rfl))
  have r := r.step (.startOff (t := 0) (ts := 0) rfl ⟨rfl, by decide⟩ rfl)
  have r := r.step (.newBuf (t := 0) false 4 rfl)
  have r := r.step (.turnOn (t := 0) (ts := 1) rfl ⟨rfl, by decide⟩)
  have r := r.step (.unlockM (t := 0) rfl)
  have r := r.step (.lockM (t := 1) rfl rfl)
  have r := r.step (.register (t := 1) rfl rfl)
  have r := r.step (.unlockM (t := 1) rfl)
  have r := r.step (.logOn (t := 1) (ts := 1) rfl ⟨rfl, by decide⟩ (by decide))
  have r := r.step (.tryOk (t := 1) rfl rfl)
  have r := r.step (.noChunk (t := 1) rfl rfl rfl)
  have r := r.step (.checkOn (t := 1) (ts := 1) rfl ⟨rfl, by decide⟩ (by decide))
  have r := r.step (.replaceNone (t := 1) rfl rfl)
  have r := r.step (.againOn (t := 1) (ts := 1) rfl ⟨rfl, by decide⟩ (by decide))
  have r := r.step (.bufSome (t := 1) rfl rfl)
  have r := r.step (.fresh (t := 1) rfl (by decide))
  have r := r.step (.reset (t := 1) rfl)
  have r := r.step (.setChunk (t := 1) rfl)
  exact ⟨_, r, rfl, rfl, rfl⟩

/-- And then the chunk holds it. -/
example : ∃ L w, Run St.init L w ∧ (w.bufs 0).ring = false ∧ .store 1 (0, 0) ∈ heldIn L (0, 0) ∧
    owner L (0, 0) = some 1 ∧ L.countP (·.empties (0, 0)) = 1 := by
  obtain ⟨w, h, hq, hc, hf⟩ := exFixed
  obtain ⟨L, r⟩ := (leads_reachable h).run
  have r' := r.store hq hc
  have ho := C105_own r' (A := []) rfl
  refine ⟨_, _, r', hf, by simp [heldIn, Change.empties, Change.adds], by rw [owner_skip rfl]; exact ho, ?_⟩
  have h1 := (C105_fixed r' (c := (0, 0)) hf).1
  have h2 : 0 < (Change.store 1 (0, 0) :: L).countP (·.empties (0, 0)) :=
    List.countP_pos_iff.2 ⟨_, List.mem_cons_of_mem _ (owner_exists ho), by simp [Change.empties]⟩
  omega

/-- A fixed buffer is taken by the thread that stopped tracing, and is the log's no more. -/
example : ∃ w : St, Reachable true w ∧ 0 < w.cnt ∧ w.buf ≠ some 0 := by
  have r := Reachable.init (pol := true)
  have r := r.step (.lockM (t := 0) rfl rfl)
  have r := r.step (.start (t := 0) rfl (fun _ => rfl))
  have r := r.step (.startOff (t := 0) (ts := 0) rfl ⟨rfl, by decide⟩ rfl)
  have r := r.step (.newBuf (t := 0) false 4 rfl)
  have r := r.step (.turnOn (t := 0) (ts := 1) rfl ⟨rfl, by decide⟩)
  have r := r.step (.stop (t := 0) rfl)
  have r := r.step (.exchangeOn (t := 0) (ts := 1) rfl ⟨rfl, by decide⟩ rfl (by decide))
  have r := r.step (.evDone (t := 0) rfl (fun _ => rfl))
  have r := r.step (.getBuf (t := 0) rfl)
  have r := r.step (.getBufOff (t := 0) (ts := 2) rfl ⟨rfl, by decide⟩ rfl)
  have r := r.step (.take (t := 0) rfl)
  exact ⟨_, r, by decide, by simp⟩

end Phosphor.TLog.W
