import Verif.Model.Clock
import Verif.Props.Window
/-
C95: the times of the events in the buffer of a run lie within the run.
-/
namespace Phosphor.Clock
open TLog (Item Reads)
variable {ε : Type} {tid : Nat → Nat} {given : ε → Option (Nat × Nat)} {s s' : St ε}

/-- The run that may be recording: it has begun, and its stop has not come to the decision about the
callback, which follows the eviction of the threads. -/
def recording : List Item → Option Nat
  | [] => none
  | .run b _ :: _ => some b
  | .call _ :: _ => none
  | .noCall :: _ => none
  | _ :: h => recording h

/-- The item ends a stop. -/
def Ends (i : Item) : Prop := i = .noCall ∨ ∃ cb, i = .call cb

theorem recording_run {h : List Item} {b : Nat} (hr : recording h = some b) : b ∈ TLog.runIds h := by
  induction h with
  | nil => cases hr
  | cons i h ih =>
    cases i with
    | run c cfg => simp only [recording, Option.some.injEq] at hr; subst hr; simp [TLog.runIds]
    | call cb => cases hr
    | noCall => cases hr
    | _ => exact ih hr

theorem runIds_append (p q : List Item) : TLog.runIds (p ++ q) = TLog.runIds p ++ TLog.runIds q := by
  induction p with
  | nil => rfl
  | cons i p ih => cases i <;> simp [TLog.runIds, ih]

/-- A run that has been ended does not record again. -/
theorem recording_ended {post pre : List Item} {i : Item} {b : Nat}
    (hd : (TLog.runIds (post ++ i :: pre)).Pairwise (· > ·)) (hi : Ends i) (hb : b ∈ TLog.runIds pre) :
    recording (post ++ i :: pre) ≠ some b := by
  induction post with
  | nil => rcases hi with rfl | ⟨cb, rfl⟩ <;> simp [recording]
  | cons j post ih =>
    cases j with
    | run c cfg =>
      intro e
      simp only [List.cons_append, recording, Option.some.injEq] at e
      subst e
      simp only [List.cons_append, TLog.runIds, List.pairwise_cons] at hd
      have : c ∈ TLog.runIds (post ++ i :: pre) := by
        rw [runIds_append]
        refine List.mem_append_right _ ?_
        rcases hi with rfl | ⟨cb, rfl⟩ <;> exact hb
      exact absurd (hd.1 c this) (Nat.lt_irrefl _)
    | call cb => simp [recording]
    | noCall => simp [recording]
    | _ => exact ih hd

/-- The run that may be recording is the last one. -/
theorem recording_last {h : List Item} {b c : Nat} (hd : (TLog.runIds h).Pairwise (· > ·))
    (hr : recording h = some b) (hc : c ∈ TLog.runIds h) : c ≤ b := by
  induction h with
  | nil => cases hr
  | cons i h ih =>
    cases i with
    | run d cfg =>
      simp only [recording, Option.some.injEq] at hr
      subst hr
      simp only [TLog.runIds, List.mem_cons, List.pairwise_cons] at hc hd
      rcases hc with rfl | hc
      · exact Nat.le_refl _
      · exact Nat.le_of_lt (hd.1 c hc)
    | call cb => cases hr
    | noCall => cases hr
    | _ => exact ih hd hr hc

theorem on_recording {h : List Item} (hok : TLog.HistOk h) (ho : TLog.on h = true) :
    recording h = TLog.available h := by
  induction h with
  | nil => cases ho
  | cons i h ih =>
    cases i with
    | run c cfg => rfl
    | stop sh f => cases ho
    | call cb =>
      obtain ⟨⟨sh, h1, _⟩, h2⟩ := hok
      have ho : TLog.on h = true := ho
      cases h with
      | nil => cases h1
      | cons j h => cases j <;> first | (cases ho; done) | cases h1
    | noCall =>
      obtain ⟨⟨sh, h1, _⟩, h2⟩ := hok
      have ho : TLog.on h = true := ho
      cases h with
      | nil => cases h1
      | cons j h => cases j <;> first | (cases ho; done) | cases h1
    | retrieve r =>
      have h1 := hok.1.2.1
      have ho : TLog.on h = true := ho
      rw [ho] at h1; cases h1
    | _ => exact ih hok.2 ho

theorem enable_calm {p : TLog.Pc ε} (h : p.isEnable = true) : p.isOff = true ∧ p.pending = [] := by
  unfold TLog.Pc.isEnable at h
  split at h
  · exact ⟨rfl, rfl⟩
  · cases h

theorem pending_phase {p : TLog.Pc ε} {t : Nat} (h : t ∈ p.pending) : p.stopPhase ≠ none := by
  unfold TLog.Pc.pending at h
  split at h <;> first | (cases h; done) | simp [TLog.Pc.stopPhase]

/-- Whoever has a chunk has it of the run that may be recording. -/
theorem chunk_recording {l : TLog.St ε} (h : TLog.Reachable true tid l) {t b i : Nat}
    (hc : (l.tenant t).chunk = some (b, i)) : recording l.hist = some b := by
  have hb := h.ctl.chunkBuf t b i hc
  have hbuf := h.hist.buf
  have hcr : l.creating = false := by
    rcases hcr : l.creating with _ | _
    · rfl
    · exfalso
      unfold TLog.St.creating at hcr
      split at hcr
      · cases hcr
      · rename_i o ho
        obtain ⟨k1, k2⟩ := enable_calm hcr
        rcases h.ctl.comm t (Or.inl (by rw [hc]; simp)) with h' | h'
        · rw [h.ctl.off o k1] at h'; cases h'
        · unfold TLog.St.pend at h'
          rw [ho] at h'
          simp only [k2] at h'
          cases h'
  rw [hcr] at hbuf
  have hav : TLog.available l.hist = some b := by rw [← hb, hbuf]; rfl
  have hok := h.hist.ok
  rcases h.ctl.comm t (Or.inl (by rw [hc]; simp)) with h' | h'
  · rw [on_recording hok (by rw [← h.hist.en]; exact h'), hav]
  · have hst := h.hist.stop
    have hph : l.phase ≠ none := by
      unfold TLog.St.phase
      unfold TLog.St.pend at h'
      split at h'
      · cases h'
      · rename_i o ho
        rw [ho]
        exact pending_phase h'
    rw [← hst] at hph
    revert hok hav hph
    cases l.hist with
    | nil => intro _ _ hph; exact absurd rfl hph
    | cons j h =>
      intro hav hok hph
      cases j with
      | stop sh f =>
        show recording h = some b
        rw [on_recording hok.2 hok.1.2]; exact hav
      | _ => exact absurd rfl hph

/-- A step of a thread that puts an event into its chunk. -/
theorem store_step {l l' : TLog.St ε} {t : Nat} {c : TLog.Choice ε} {e : ε} (hp : l.pc t = .store e)
    (hs : l.next true tid t c = .to l') :
    ((c = .step ∨ c = .spurious) ∧ ∃ b i, (l.tenant t).chunk = some (b, i) ∧ l'.hist = l.hist ∧ l'.nextBuf = l.nextBuf ∧
      l'.stored = setf l.stored b (setf (l.stored b) t (l.stored b t ++ [e])) ∧ (l'.pc t).event = none) ∨
    ((c ≠ .step ∧ c ≠ .spurious) ∧ l'.hist = l.hist ∧ l'.nextBuf = l.nextBuf ∧ l'.stored = l.stored ∧ l'.pc = l.pc) := by
  have key : ∀ sp, l.logStep tid t sp = .to l' → ∃ b i, (l.tenant t).chunk = some (b, i) ∧ l'.hist = l.hist ∧
      l'.nextBuf = l.nextBuf ∧ l'.stored = setf l.stored b (setf (l.stored b) t (l.stored b t ++ [e])) ∧
      (l'.pc t).event = none := by
    intro sp hs
    simp only [TLog.St.logStep, hp] at hs
    split at hs
    · cases hs
    · rename_i b i hc
      split at hs
      · split at hs
        · cases hs
          refine ⟨b, i, hc, rfl, rfl, rfl, ?_⟩
          rw [TLog.goto_pc]; rfl
        · cases hs
      · cases hs
  have nb : ∀ sp, l.logStep tid t sp ≠ .blocked := by
    intro sp hs
    simp only [TLog.St.logStep, hp] at hs
    split at hs
    · cases hs
    · split at hs
      · split at hs <;> cases hs
      · cases hs
  unfold TLog.St.next at hs
  cases c with
  | step =>
    dsimp only at hs
    split at hs
    · rename_i h; exact absurd h (nb _)
    · exact Or.inl ⟨Or.inl rfl, key _ hs⟩
  | spurious =>
    dsimp only at hs
    split at hs
    · rename_i h; exact absurd h (nb _)
    · exact Or.inl ⟨Or.inr rfl, key _ hs⟩
  | free b =>
    dsimp only at hs
    split at hs <;> cases hs
    exact Or.inr ⟨by simp, rfl, rfl, rfl, rfl⟩
  | log e => simp [TLog.St.isIdle, hp] at hs
  | lock => simp [TLog.St.isIdle, hp] at hs
  | register n => simp [TLog.St.isIdle, hp] at hs
  | deregister => simp [TLog.St.isIdle, hp] at hs
  | _ => simp [hp] at hs

theorem act_eq {t : Nat} {c : TLog.Choice ε} (h : s.act tid t c = some s') :
    s.log.next true tid t c = .to s'.log ∧ s'.now = s.now ∧ s'.times = s.stamp t c ∧
      ∃ new, s'.log.hist = new ++ s.log.hist ∧ s'.timed = new.map (fun i => (s.now, i)) ++ s.timed := by
  unfold St.act at h
  split at h
  · rename_i l hl
    cases h
    obtain ⟨new, e⟩ := TLog.next_hist hl
    refine ⟨hl, rfl, rfl, new, e, ?_⟩
    simp [e]
  · cases h

/-- What holds of the clock and the log. -/
structure Inv (tid : Nat → Nat) (given : ε → Option (Nat × Nat)) (s : St ε) : Prop where
  reach : TLog.Reachable true tid s.log
  hist : s.timed.map (·.2) = s.log.hist
  past : ∀ p ∈ s.timed, p.1 ≤ s.now
  sorted : (s.timed.map (·.1)).Pairwise (· ≥ ·)
  len : ∀ b t, b < s.log.nextBuf → (s.times b t).length = (s.log.stored b t).length
  born : ∀ b t, s.times b t ≠ [] → b ∈ TLog.runIds s.log.hist
  now : ∀ b t, ∀ x ∈ s.times b t, x ≤ s.now
  order : ∀ b t, (s.times b t).Pairwise (· ≤ ·)
  begins : ∀ b t, ∀ x ∈ s.times b t, ∀ post τ cfg pre, s.timed = post ++ (τ, .run b cfg) :: pre → τ ≤ x
  ends : ∀ b t, ∀ x ∈ s.times b t, ∀ post τ i pre, s.timed = post ++ (τ, i) :: pre → Ends i →
    recording (pre.map (·.2)) = some b → x ≤ τ
  later : ∀ b t, ∀ x ∈ s.times b t, ∀ τ b' cfg, (τ, .run b' cfg) ∈ s.timed → b < b' → x ≤ τ
  hand : ∀ t e a z, (s.log.pc t).event = some e → given e = some (a, z) → a ≤ z ∧ z ≤ s.now
  measured : ∀ b t, b < s.log.nextBuf → ∀ p ∈ (s.log.stored b t).zip (s.times b t), ∀ a z, given p.1 = some (a, z) →
    a ≤ z ∧ z ≤ p.2

theorem Inv.init : Inv tid given (St.init : St ε) := by
  constructor <;> simp [St.init, TLog.St.init, TLog.Pc.event]
  exact .init

theorem Inv.tick (h : Inv tid given s) (d : Nat) : Inv tid given { s with now := s.now + d } := by
  obtain ⟨h1, h2, h3, h4, h5, h6, h7, h8, h9, h10, h13, h11, h12⟩ := h
  refine ⟨h1, h2, fun p hp => Nat.le_add_right_of_le (h3 p hp), h4, h5, h6,
    fun b t x hx => Nat.le_add_right_of_le (h7 b t x hx), h8, h9, h10, h13, fun t e a z he hg => ?_, h12⟩
  have := h11 t e a z he hg
  exact ⟨this.1, Nat.le_add_right_of_le this.2⟩

/-- An item added to the history, the times staying as they are. -/
theorem Inv.more (h : Inv tid given s) {l : TLog.St ε} (hl : TLog.Reachable true tid l) {new : List Item}
    (hh : l.hist = new ++ s.log.hist)
    (hst : ∀ b t, b < s.log.nextBuf → l.stored b t = s.log.stored b t)
    (hfresh : ∀ b t, s.log.nextBuf ≤ b → b < l.nextBuf → l.stored b t = [])
    (hev : ∀ t e a z, (l.pc t).event = some e → given e = some (a, z) → a ≤ z ∧ z ≤ s.now) :
    Inv tid given ⟨l, s.now, s.times, new.map (fun i => (s.now, i)) ++ s.timed⟩ := by
  have hnone : ∀ b t, s.log.nextBuf ≤ b → s.times b t = [] := by
    intro b t hb
    by_contra hne
    have := h.reach.runs.lt b (h.born b t hne)
    omega
  have hsplit : ∀ {post : List (Nat × Item)} {τ : Nat} {i : Item} {pre : List (Nat × Item)},
      new.map (fun i => (s.now, i)) ++ s.timed = post ++ (τ, i) :: pre →
      (∃ post', s.timed = post' ++ (τ, i) :: pre) ∨ (τ = s.now ∧ ∃ n1 n2, new = n1 ++ i :: n2 ∧
        pre = n2.map (fun i => (s.now, i)) ++ s.timed) := by
    intro post τ i pre e
    rcases List.append_eq_append_iff.1 e with ⟨m, e1, e2⟩ | ⟨m, e1, e2⟩
    · exact Or.inl ⟨m, e2⟩
    · cases m with
      | nil => exact Or.inl ⟨[], by simpa using e2.symm⟩
      | cons x m =>
        right
        simp only [List.cons_append, List.cons.injEq] at e2
        obtain ⟨rfl, e2⟩ := e2
        rw [List.map_eq_append_iff] at e1
        obtain ⟨n1, n2, rfl, rfl, e1⟩ := e1
        cases n2 with
        | nil => cases e1
        | cons j n2 =>
          simp only [List.map_cons, List.cons.injEq, Prod.mk.injEq] at e1
          obtain ⟨⟨rfl, rfl⟩, rfl⟩ := e1
          exact ⟨rfl, n1, n2, rfl, e2⟩
  constructor
  · exact hl
  · show (new.map (fun i => (s.now, i)) ++ s.timed).map (·.2) = l.hist
    rw [List.map_append, h.hist, hh]; simp [Function.comp_def]
  · intro p hp
    simp only [List.mem_append, List.mem_map] at hp
    rcases hp with ⟨i, _, rfl⟩ | hp
    · exact Nat.le_refl _
    · exact h.past p hp
  · show ((new.map (fun i => (s.now, i)) ++ s.timed).map (·.1)).Pairwise (· ≥ ·)
    rw [List.map_append, List.pairwise_append]
    refine ⟨?_, h.sorted, ?_⟩
    · rw [List.map_map, show ((fun p : Nat × Item => p.1) ∘ fun i => (s.now, i)) = fun _ => s.now from rfl, List.map_const']
      exact List.pairwise_replicate.2 (Or.inr (Nat.le_refl _))
    · intro a ha b hb
      simp only [List.map_map, List.mem_map] at ha hb
      obtain ⟨_, _, rfl⟩ := ha
      obtain ⟨p, hp, rfl⟩ := hb
      exact h.past p hp
  · intro b t hb
    by_cases hlt : b < s.log.nextBuf
    · show (s.times b t).length = (l.stored b t).length
      rw [hst b t hlt]; exact h.len b t hlt
    · show (s.times b t).length = (l.stored b t).length
      rw [hfresh b t (by omega) hb, hnone b t (by omega)]; rfl
  · intro b t hne
    show b ∈ TLog.runIds l.hist
    rw [hh, runIds_append]
    exact List.mem_append_right _ (h.born b t hne)
  · exact h.now
  · exact h.order
  · intro b t x hx post τ cfg pre e
    rcases hsplit e with ⟨post', e'⟩ | ⟨rfl, n1, n2, rfl, _⟩
    · exact h.begins b t x hx post' τ cfg pre e'
    · exfalso
      have hb := h.born b t (List.ne_nil_of_mem hx)
      have hd := hl.runs.dec
      rw [hh, List.append_assoc, List.cons_append, runIds_append, TLog.runIds, List.pairwise_append] at hd
      have := (List.pairwise_cons.1 hd.2.1).1 b (by rw [runIds_append]; exact List.mem_append_right _ hb)
      exact absurd this (Nat.lt_irrefl _)
  · intro b t x hx post τ i pre e hi hrec
    rcases hsplit e with ⟨post', e'⟩ | ⟨rfl, _⟩
    · exact h.ends b t x hx post' τ i pre e' hi hrec
    · exact h.now b t x hx
  · intro b t x hx τ b' cfg hm hlt
    rcases List.mem_append.1 hm with hm | hm
    · obtain ⟨i, _, e⟩ := List.mem_map.1 hm
      cases e
      exact h.now b t x hx
    · exact h.later b t x hx τ b' cfg hm hlt
  · exact hev
  · intro b t hb p hp
    by_cases hlt : b < s.log.nextBuf
    · have hp : p ∈ (l.stored b t).zip (s.times b t) := hp
      rw [hst b t hlt] at hp
      exact h.measured b t hlt p hp
    · have hp : p ∈ (l.stored b t).zip (s.times b t) := hp
      rw [hfresh b t (by omega) hb] at hp
      simp at hp

theorem Inv.act (h : Inv tid given s) {t : Nat} {c : TLog.Choice ε} (ha : s.act tid t c = some s')
    (hg : ∀ e a z, c = .log e → given e = some (a, z) → a ≤ z ∧ z ≤ s.now) : Inv tid given s' := by
  obtain ⟨hs, hnow, htimes, new, hh, htimed⟩ := act_eq ha
  have hr := h.reach.step hs
  obtain ⟨log', now', times', timed'⟩ := s'
  simp only at hs hnow htimes hh htimed hr
  subst hnow htimes htimed
  have hmono := TLog.nextBuf_mono hs
  have hevs : ∀ u, u ≠ t → log'.pc u = s.log.pc u := fun u hu => TLog.next_pc hs hu
  by_cases hstore : ∃ e, s.log.pc t = .store e
  · obtain ⟨e, hp⟩ := hstore
    rcases store_step hp hs with ⟨hc, b, i, hch, hh', hn', hst', hev'⟩ | ⟨hc, hh', hn', hst', hpc'⟩
    · have hnew : new = [] := by rw [hh'] at hh; simpa using hh
      subst hnew
      have hstamp : s.stamp t c = setf s.times b (setf (s.times b) t (s.times b t ++ [s.now])) := by
        unfold St.stamp
        rw [hp, hch]
        rcases hc with rfl | rfl <;> rfl
      rw [hstamp]
      have hrec := chunk_recording h.reach hch
      have hbn : b < s.log.nextBuf := by
        have := h.reach.ctl.last b (h.reach.ctl.chunkBuf t b i hch); omega
      have hmem : ∀ {b' t' x}, x ∈ setf s.times b (setf (s.times b) t (s.times b t ++ [s.now])) b' t' →
          x ∈ s.times b' t' ∨ (b' = b ∧ t' = t ∧ x = s.now) := by
        intro b' t' x hx
        by_cases e1 : b' = b
        · subst e1
          by_cases e2 : t' = t
          · subst e2
            simp only [setf, if_true] at hx
            rcases List.mem_append.1 hx with hx | hx
            · exact Or.inl hx
            · exact Or.inr ⟨rfl, rfl, List.mem_singleton.1 hx⟩
          · simp only [setf, if_true, e2, if_false] at hx
            exact Or.inl hx
        · simp only [setf, e1, if_false] at hx
          exact Or.inl hx
      have hat : ∀ b' t', (b' = b ∧ t' = t ∧ setf s.times b (setf (s.times b) t (s.times b t ++ [s.now])) b' t' = s.times b t ++ [s.now] ∧
            log'.stored b' t' = s.log.stored b t ++ [e]) ∨
          (setf s.times b (setf (s.times b) t (s.times b t ++ [s.now])) b' t' = s.times b' t' ∧
            log'.stored b' t' = s.log.stored b' t') := by
        intro b' t'
        rw [hst']
        by_cases h1 : b' = b
        · subst h1
          by_cases h2 : t' = t
          · subst h2; left; simp [setf]
          · right; simp [setf, h2]
        · right; simp [setf, h1]
      constructor
      · exact hr
      · simpa [hh'] using h.hist
      · exact h.past
      · exact h.sorted
      · intro b' t' hb'
        rcases hat b' t' with ⟨rfl, rfl, e1, e2⟩ | ⟨e1, e2⟩
        · simp only [e1, e2, List.length_append, h.len b' t' hbn, List.length_singleton]
        · simp only [e1, e2]; exact h.len b' t' (by simp only [] at hb'; omega)
      · intro b' t' hne
        show b' ∈ TLog.runIds log'.hist
        rw [hh']
        rcases hat b' t' with ⟨rfl, rfl, e1, e2⟩ | ⟨e1, e2⟩
        · exact recording_run hrec
        · simp only [e1] at hne; exact h.born b' t' hne
      · intro b' t' x hx
        rcases hmem hx with hx | ⟨rfl, rfl, rfl⟩
        · exact h.now b' t' x hx
        · exact Nat.le_refl _
      · intro b' t'
        rcases hat b' t' with ⟨rfl, rfl, e1, e2⟩ | ⟨e1, e2⟩
        · simp only [e1]
          refine List.pairwise_append.2 ⟨h.order b' t', List.pairwise_singleton _ _, fun x hx y hy => ?_⟩
          rw [List.mem_singleton.1 hy]
          exact h.now b' t' x hx
        · simp only [e1]; exact h.order b' t'
      · intro b' t' x hx post τ cfg pre eq
        replace eq : s.timed = post ++ (τ, .run b' cfg) :: pre := eq
        rcases hmem hx with hx | ⟨rfl, rfl, rfl⟩
        · exact h.begins b' t' x hx post τ cfg pre eq
        · exact h.past (τ, .run b' cfg) (by rw [eq]; simp)
      · intro b' t' x hx post τ j pre eq hi hrec'
        replace eq : s.timed = post ++ (τ, j) :: pre := eq
        rcases hmem hx with hx | ⟨rfl, rfl, rfl⟩
        · exact h.ends b' t' x hx post τ j pre eq hi hrec'
        · exfalso
          have hd := h.reach.runs.dec
          have hh := h.hist
          rw [eq] at hh
          simp only [List.map_append, List.map_cons] at hh
          rw [← hh] at hd hrec
          exact recording_ended hd hi (recording_run hrec') hrec
      · intro b' t' x hx τ d cfg hm hlt
        replace hm : (τ, Item.run d cfg) ∈ s.timed := hm
        rcases hmem hx with hx | ⟨rfl, rfl, rfl⟩
        · exact h.later b' t' x hx τ d cfg hm hlt
        · exfalso
          have : d ∈ TLog.runIds s.log.hist := by
            rw [← h.hist]
            obtain ⟨p, q, e⟩ := List.append_of_mem hm
            rw [e]
            simp [runIds_append, TLog.runIds]
          have := recording_last h.reach.runs.dec hrec this
          omega
      · intro u e' a z he' hg'
        by_cases hu : u = t
        · subst hu; rw [hev'] at he'; cases he'
        · rw [hevs u hu] at he'; exact h.hand u e' a z he' hg'
      · intro b' t' hb' p hp' a z hgiven
        rcases hat b' t' with ⟨rfl, rfl, e1, e2⟩ | ⟨e1, e2⟩
        · simp only [e1, e2] at hp'
          rw [List.zip_append (by rw [h.len b' t' hbn])] at hp'
          rcases List.mem_append.1 hp' with hp' | hp'
          · exact h.measured b' t' hbn p hp' a z hgiven
          · simp only [List.zip_cons_cons, List.zip_nil_left, List.mem_singleton] at hp'
            subst hp'
            exact h.hand t' e a z (by rw [hp]; rfl) hgiven
        · simp only [e1, e2] at hp'
          exact h.measured b' t' (by simp only [] at hb'; omega) p hp' a z hgiven
    · have hstamp : s.stamp t c = s.times := by
        unfold St.stamp
        split
        · exact absurd rfl hc.1
        · exact absurd rfl hc.2
        · rfl
      rw [hstamp]
      refine h.more hr hh (fun b u _ => by rw [hst']) (fun b u h1 h2 => by omega) ?_
      intro u e' a z he' hg'
      rw [hpc'] at he'
      exact h.hand u e' a z he' hg'
  · have hstamp : s.stamp t c = s.times := by
      unfold St.stamp
      split
      · rename_i hp _; exact absurd ⟨_, hp⟩ hstore
      · rename_i hp _; exact absurd ⟨_, hp⟩ hstore
      · rfl
    rw [hstamp]
    have hfresh : ∀ b u, s.log.nextBuf ≤ b → b < log'.nextBuf → log'.stored b u = [] := by
      intro b u h1 h2
      cases TLog.next_book hs with
      | calm new hn => omega
      | free b hb e => subst e; simp only [] at h2; omega
      | retrieve cs st hp he' e => subst e; simp only [TLog.St.retrieve] at h2; omega
      | create n st hp e =>
        subst e
        simp only [TLog.St.goto, TLog.St.createBuffer] at h2 ⊢
        have : b = s.log.nextBuf := by omega
        subst this
        simp [setf]
      | enable st hp e =>
        subst e
        obtain ⟨q, _, e⟩ := TLog.pop_goto s.log.enable t st
        rw [e] at h2
        simp only [TLog.St.goto, TLog.St.enable] at h2; omega
      | reg n hp hi e =>
        subst e
        have := (TLog.registerBody_frame (s := s.log) (tid := tid) (t := t) n).1
        simp only [TLog.St.goto, this] at h2; omega
      | dereg x hp hi hx e =>
        subst e
        obtain ⟨hp', rfl⟩ := TLog.deregisterBody_eq hi hx
        simp only [TLog.St.goto] at h2
        omega
    rcases TLog.next_fate hs with ⟨e, hce, hp, hl'⟩ | ⟨hl, hf⟩
    · refine h.more hr hh (fun b u _ => by rw [hl']; rfl) hfresh ?_
      intro u e' a z he' hg'
      by_cases hu : u = t
      · subst hu
        rw [hl', TLog.goto_pc] at he'
        cases he'
        exact hg e a z hce hg'
      · rw [hevs u hu] at he'; exact h.hand u e' a z he' hg'
    · have hst : ∀ b u, b < s.log.nextBuf → log'.stored b u = s.log.stored b u := by
        intro b u hb
        cases hf with
        | keep _ hk => rw [hk b (by omega)]
        | store e b' i hp _ _ _ _ => exact absurd ⟨e, hp⟩ hstore
        | drop _ _ hk => rw [hk]
      refine h.more hr hh hst hfresh ?_
      intro u e' a z he' hg'
      by_cases hu : u = t
      · subst hu
        cases hf with
        | keep hk _ => rw [hk] at he'; exact h.hand u e' a z he' hg'
        | store e b' i hp _ _ _ _ => exact absurd ⟨e, hp⟩ hstore
        | drop _ hk _ => rw [hk] at he'; cases he'
      · rw [hevs u hu] at he'; exact h.hand u e' a z he' hg'

theorem Reachable.inv (h : Reachable tid given s) : Inv tid given s := by
  induction h with
  | init => exact .init
  | step _ st ih =>
    cases st with
    | tick d => exact ih.tick d
    | act t c ha hg => exact ih.act ha hg

/-- Every event in a buffer has been constructed once: the times are as many as the events. -/
theorem C95_recorded (h : Reachable tid given s) {b t : Nat} (hb : b < s.log.nextBuf) :
    (s.times b t).length = (s.log.stored b t).length := h.inv.len b t hb

/-- The log moves as it does without a clock, and its history is the one that is timed. -/
theorem C95_log (h : Reachable tid given s) :
    TLog.Reachable true tid s.log ∧ s.timed.map (·.2) = s.log.hist := ⟨h.inv.reach, h.inv.hist⟩

/-- The events of a thread in a buffer are constructed in the order they have there. -/
theorem C95_order (h : Reachable tid given s) (b t : Nat) :
    (s.times b t).Pairwise (· ≤ ·) ∧ ∀ x ∈ s.times b t, x ≤ s.now := ⟨h.inv.order b t, h.inv.now b t⟩

/-- No event in the buffer of a run has been constructed before the run began. -/
theorem C95_begin (h : Reachable tid given s) {b t x τ : Nat} {cfg : TraceConfig} (hx : x ∈ s.times b t)
    (hm : (τ, .run b cfg) ∈ s.timed) : τ ≤ x := by
  obtain ⟨p, q, e⟩ := List.append_of_mem hm
  exact h.inv.begins b t x hx p τ cfg q e

/-- No event in the buffer of a run has been constructed after the stop that ended the run had evicted the
threads and decided about the callback. -/
theorem C95_end (h : Reachable tid given s) {b t x τ : Nat} {i : Item} {post pre : List (Nat × Item)}
    (hx : x ∈ s.times b t) (hm : s.timed = post ++ (τ, i) :: pre) (hi : Ends i)
    (hr : recording (pre.map (·.2)) = some b) : x ≤ τ := h.inv.ends b t x hx post τ i pre hm hi hr

/-- The time of an event and its duration lie within the run whose buffer the event is in, except that an
event whose caller measured its start may have begun before the run. -/
theorem C95_within_partial (h : Reachable tid given s) {b t : Nat} (hb : b < s.log.nextBuf) {e : ε} {x : Nat}
    (he : (e, x) ∈ (s.log.stored b t).zip (s.times b t)) :
    timeOf given e x ≤ endOf given e x ∧
    (∀ τ cfg, (τ, .run b cfg) ∈ s.timed → given e = none → τ ≤ timeOf given e x) ∧
    (∀ τ i post pre, s.timed = post ++ (τ, i) :: pre → Ends i → recording (pre.map (·.2)) = some b →
      endOf given e x ≤ τ) := by
  have hx := (List.of_mem_zip he).2
  have hme := h.inv.measured b t hb _ he
  refine ⟨?_, ?_, ?_⟩
  · unfold timeOf endOf
    split
    · rename_i hg; exact (hme _ _ hg).1
    · exact Nat.le_refl _
  · intro τ cfg hm hg
    unfold timeOf
    rw [hg]
    exact C95_begin h hx hm
  · intro τ i post pre hm hi hr
    have := C95_end h hx hm hi hr
    unfold endOf
    split
    · rename_i hg; exact Nat.le_trans (hme _ _ hg).2 this
    · exact this

theorem zip_sublist {α β : Type} (p : List α) (q : List β) : ((p.zip q).map (·.2)).Sublist q := by
  induction p generalizing q with
  | nil => simp
  | cons a p ih =>
    cases q with
    | nil => simp
    | cons b q => simpa using ih q

/-- The events of a thread whose caller measured no times bear times in the order they have in the buffer. -/
theorem C95_sorted (h : Reachable tid given s) {b t : Nat}
    (hn : ∀ e ∈ s.log.stored b t, given e = none) :
    (((s.log.stored b t).zip (s.times b t)).map (fun p => timeOf given p.1 p.2)).Pairwise (· ≤ ·) := by
  have e : ((s.log.stored b t).zip (s.times b t)).map (fun p => timeOf given p.1 p.2) =
      ((s.log.stored b t).zip (s.times b t)).map (·.2) := by
    refine List.map_congr_left fun p hp => ?_
    unfold timeOf
    rw [hn p.1 (List.of_mem_zip hp).1]
  rw [e]
  refine List.Pairwise.sublist ?_ (C95_order h b t).1
  exact zip_sublist _ _

/-- Whatever is in the buffer of a run was constructed before a later run began, and so before everything
in the buffer of the later run. -/
theorem C95_runs (h : Reachable tid given s) {b b' t t' x y : Nat} (hlt : b < b') (hx : x ∈ s.times b t)
    (hy : y ∈ s.times b' t') : x ≤ y ∧ ∃ τ cfg, (τ, .run b' cfg) ∈ s.timed ∧ x ≤ τ ∧ τ ≤ y := by
  have hb := h.inv.born b' t' (List.ne_nil_of_mem hy)
  rw [← h.inv.hist] at hb
  have key : ∀ l : List (Nat × Item), b' ∈ TLog.runIds (l.map (·.2)) → ∃ τ cfg, (τ, Item.run b' cfg) ∈ l := by
    intro l
    induction l with
    | nil => intro h; cases h
    | cons p l ih =>
      intro h
      obtain ⟨τ, i⟩ := p
      cases i with
      | run c cfg =>
        simp only [List.map_cons, TLog.runIds, List.mem_cons] at h
        rcases h with rfl | h
        · exact ⟨τ, cfg, List.mem_cons_self⟩
        · obtain ⟨τ', cfg', hm⟩ := ih h
          exact ⟨τ', cfg', List.mem_cons_of_mem _ hm⟩
      | _ =>
        obtain ⟨τ', cfg', hm⟩ := ih h
        exact ⟨τ', cfg', List.mem_cons_of_mem _ hm⟩
  obtain ⟨τ, cfg, hm⟩ := key _ hb
  have h1 := h.inv.later b t x hx τ b' cfg hm hlt
  have h2 := C95_begin h hy hm
  exact ⟨Nat.le_trans h1 h2, τ, cfg, hm, h1, h2⟩

/-- Any number of steps. -/
inductive Steps (tid : Nat → Nat) (given : ε → Option (Nat × Nat)) : St ε → St ε → Prop
  | refl (s : St ε) : Steps tid given s s
  | step {s s' s'' : St ε} : Steps tid given s s' → Step tid given s' s'' → Steps tid given s s''

/-- What is constructed later bears a later time, whichever threads and runs are concerned: from some state
on, the times in a buffer only grow at the end, by times not before that state. -/
theorem C95_causal (h : Steps tid given s s') (b t : Nat) :
    s.now ≤ s'.now ∧ ∃ new, s'.times b t = s.times b t ++ new ∧ ∀ y ∈ new, s.now ≤ y := by
  induction h with
  | refl => exact ⟨Nat.le_refl _, [], by simp, by simp⟩
  | @step s1 s2 _ st ih =>
    obtain ⟨hn, new, e, hnew⟩ := ih
    cases st with
    | tick d => exact ⟨Nat.le_add_right_of_le hn, new, e, hnew⟩
    | act u c ha hg =>
      obtain ⟨_, h1, h2, _⟩ := act_eq ha
      rw [h1]
      refine ⟨hn, ?_⟩
      rw [h2]
      have key : ∀ b', ∃ more, setf s1.times b' (setf (s1.times b') u (s1.times b' u ++ [s1.now])) b t =
          s1.times b t ++ more ∧ ∀ y ∈ more, s.now ≤ y := by
        intro b'
        by_cases e1 : b = b'
        · subst e1
          by_cases e2 : t = u
          · subst e2; exact ⟨[s1.now], by simp [setf], by simpa using hn⟩
          · exact ⟨[], by simp [setf, e2], by simp⟩
        · exact ⟨[], by simp [setf, e1], by simp⟩
      have : ∃ more, s1.stamp u c b t = s1.times b t ++ more ∧ ∀ y ∈ more, s.now ≤ y := by
        have hst : s1.stamp u c = s1.times ∨
            ∃ b', s1.stamp u c = setf s1.times b' (setf (s1.times b') u (s1.times b' u ++ [s1.now])) := by
          unfold St.stamp
          split
          · exact Or.inr ⟨_, rfl⟩
          · exact Or.inr ⟨_, rfl⟩
          · exact Or.inl rfl
        rcases hst with e1 | ⟨b', e1⟩
        · rw [e1]; exact ⟨[], by simp, by simp⟩
        · rw [e1]; exact key b'
      obtain ⟨more, e', hmore⟩ := this
      refine ⟨new ++ more, by rw [e', e, List.append_assoc], fun y hy => ?_⟩
      rcases List.mem_append.1 hy with hy | hy
      · exact hnew y hy
      · exact hmore y hy

/-! ### Runs -/

/-- The times passed with a call are not in the future. -/
def allowed (given : Nat → Option (Nat × Nat)) (now : Nat) : TLog.Choice Nat → Bool
  | .log e => (match given e with | some (a, z) => decide (a ≤ z) && decide (z ≤ now) | none => true)
  | _ => true

/-- Play a list of steps: `none` lets a unit of time pass. -/
def play (tid : Nat → Nat) (given : Nat → Option (Nat × Nat)) (s : St Nat) :
    List (Option (Nat × TLog.Choice Nat)) → Option (St Nat)
  | [] => some s
  | none :: l => play tid given { s with now := s.now + 1 } l
  | some (t, c) :: l =>
    if allowed given s.now c then
      (match s.act tid t c with
      | some s' => play tid given s' l
      | none => none)
    else none

theorem play_reachable {given : Nat → Option (Nat × Nat)} {s s' : St Nat} (h : Reachable tid given s)
    {l : List (Option (Nat × TLog.Choice Nat))} (hp : play tid given s l = some s') : Reachable tid given s' := by
  induction l generalizing s with
  | nil => cases hp; exact h
  | cons x l ih =>
    cases x with
    | none => exact ih (h.step (.tick 1)) hp
    | some p =>
      obtain ⟨t, c⟩ := p
      simp only [play] at hp
      split at hp
      · rename_i hg
        split at hp
        · rename_i s1 hs1
          refine ih (h.step (.act t c hs1 ?_)) hp
          intro e a z hc hgiven
          subst hc
          simp only [allowed, hgiven, Bool.and_eq_true, decide_eq_true_eq] at hg
          exact hg
        · cases hp
      · cases hp

theorem play_check {given : Nat → Option (Nat × Nat)} {l : List (Option (Nat × TLog.Choice Nat))} {p : St Nat → Bool}
    (h : (match play tid given St.init l with | some s => p s | none => false) = true) :
    ∃ s : St Nat, Reachable tid given s ∧ p s = true := by
  split at h
  · exact ⟨_, play_reachable .init (by assumption), h⟩
  · cases h

/-- A list of steps during which no time passes. -/
def quick (l : List (Nat × TLog.Choice Nat)) : List (Option (Nat × TLog.Choice Nat)) := l.map some

/-- The caller measured 1 and 4 for event 9. -/
def measured9 (e : Nat) : Option (Nat × Nat) := if e = 9 then some (1, 4) else none

/-- Two chunks, no callback. -/
def plain2 : TraceConfig := { mode := .fixed, size := 8100 }

/-- Thread 1 registers; a run begins at 3; thread 1 logs 5 at 3 and 9 at 4; the run stops at 5; another
begins at 6, and thread 1 logs 7 at 7. -/
def twoTimed : List (Option (Nat × TLog.Choice Nat)) :=
  quick (TLog.registers 1 ['a']) ++ [none, none, none] ++ quick (TLog.starts plain2) ++ quick (TLog.logs 1 5 11) ++
  [none] ++ quick (TLog.logs 1 9 6) ++ [none] ++ quick (TLog.locked ((0, .stop false) :: TLog.steps 0 4)) ++ [none] ++
  quick (TLog.starts plain2) ++ [none] ++ quick (TLog.logs 1 7 11)

/-- The hypotheses of the theorems of C95 hold. -/
example : ∃ s : St Nat, Reachable (· + 100) measured9 s ∧ s.now = 7 ∧ 1 < s.log.nextBuf ∧
    s.log.stored 0 1 = [5, 9] ∧ s.times 0 1 = [3, 4] ∧ s.log.stored 1 1 = [7] ∧ s.times 1 1 = [7] ∧
    (3, .run 0 plain2) ∈ s.timed ∧ (6, .run 1 plain2) ∈ s.timed ∧
    (∃ post pre, s.timed = post ++ (5, .noCall) :: pre ∧ recording (pre.map (·.2)) = some 0) := by
  obtain ⟨s, h, p⟩ := play_check (tid := (· + 100)) (given := measured9) (l := twoTimed) (p := fun s =>
    s.now == 7 && decide (1 < s.log.nextBuf) && s.log.stored 0 1 == [5, 9] && s.times 0 1 == [3, 4] &&
    s.log.stored 1 1 == [7] && s.times 1 1 == [7] && decide ((3, .run 0 plain2) ∈ s.timed) &&
    decide ((6, .run 1 plain2) ∈ s.timed) && s.timed[2]? == some (5, .noCall) &&
    recording ((s.timed.drop 3).map (·.2)) == some 0) (by decide +kernel)
  simp only [Bool.and_eq_true, beq_iff_eq, decide_eq_true_eq] at p
  obtain ⟨⟨⟨⟨⟨⟨⟨⟨⟨p1, p2⟩, p3⟩, p4⟩, p5⟩, p6⟩, p7⟩, p8⟩, p9⟩, p10⟩ := p
  refine ⟨s, h, p1, p2, p3, p4, p5, p6, p7, p8, s.timed.take 2, s.timed.drop 3, ?_, p10⟩
  obtain ⟨hlt, e⟩ := List.getElem?_eq_some_iff.1 p9
  rw [← e, ← List.drop_eq_getElem_cons hlt, List.take_append_drop]

/-- C95 is violated by events whose caller measures the start: event 9, as of a scope that was entered at
1, is in the buffer of a run that began at 3. -/
theorem C95_refuted_scope : ∃ s : St Nat, Reachable (· + 100) measured9 s ∧
    ∃ x, (9, x) ∈ (s.log.stored 0 1).zip (s.times 0 1) ∧ (3, .run 0 plain2) ∈ s.timed ∧ timeOf measured9 9 x < 3 := by
  obtain ⟨s, h, p⟩ := play_check (tid := (· + 100)) (given := measured9) (l := twoTimed) (p := fun s =>
    s.log.stored 0 1 == [5, 9] && s.times 0 1 == [3, 4] && decide ((3, .run 0 plain2) ∈ s.timed)) (by decide +kernel)
  simp only [Bool.and_eq_true, beq_iff_eq, decide_eq_true_eq] at p
  obtain ⟨⟨p1, p2⟩, p3⟩ := p
  exact ⟨s, h, 4, by rw [p1, p2]; simp, p3, by simp [timeOf, measured9]⟩

/-- A thread that asked `enabled` before a stop cleared it. -/
def lateTimed : List (Option (Nat × TLog.Choice Nat)) :=
  quick (TLog.registers 1 ['a']) ++ [none, none, none] ++ quick (TLog.starts plain2) ++ quick (TLog.logs 1 5 11) ++
  quick (TLog.logs 1 6 4) ++ quick [(0, .lock), (0, .stop false), (0, .step), (0, .step)] ++ [none] ++ quick (TLog.steps 1 1)

/-- C95 with the moment the stop clears `enabled` in place of the eviction is violated: the stop clears it
at 3, and event 6 is constructed at 4. -/
theorem C95_refuted_flag : ∃ s : St Nat, Reachable (· + 100) measured9 s ∧ s.log.enabled = false ∧
    (6, 4) ∈ (s.log.stored 0 1).zip (s.times 0 1) ∧ timeOf measured9 6 4 = 4 ∧
    ∃ sh f pre, s.timed = (3, .stop sh f) :: pre ∧ recording (pre.map (·.2)) = some 0 := by
  obtain ⟨s, h, p⟩ := play_check (tid := (· + 100)) (given := measured9) (l := lateTimed) (p := fun s =>
    s.log.stored 0 1 == [5, 6] && s.times 0 1 == [3, 4] && !s.log.enabled &&
    (match s.timed with | (3, .stop _ _) :: pre => recording (pre.map (·.2)) == some 0 | _ => false)) (by decide +kernel)
  simp only [Bool.and_eq_true, beq_iff_eq, Bool.not_eq_true'] at p
  obtain ⟨⟨⟨p1, p2⟩, p3⟩, p4⟩ := p
  refine ⟨s, h, p3, by rw [p1, p2]; simp, by simp [timeOf, measured9], ?_⟩
  split at p4
  · rename_i sh f pre e
    exact ⟨sh, f, pre, e, by simpa using p4⟩
  · cases p4

/-- Whoever reads the buffer of a run in fixed mode finds the events of each thread, if the caller measured no
times, with times that never go back. -/
theorem C95_read (hinj : ∀ u v, tid u = tid v → u = v) (h : Reachable tid given s) {b : Nat}
    (hb : b < s.log.nextBuf) (hm : (s.log.heap b).mode ≠ .ring) :
    ∃ evs, TLog.Reads (s.log.heap b) evs ∧ ∀ t, (TLog.ofId (tid t) evs).length = (s.times b t).length ∧
      ((∀ e ∈ TLog.ofId (tid t) evs, given e = none) →
        (((TLog.ofId (tid t) evs).zip (s.times b t)).map (fun p => timeOf given p.1 p.2)).Pairwise (· ≤ ·)) := by
  obtain ⟨evs, h1, h2⟩ := TLog.C48_read hinj (C95_log h).1 b hm
  refine ⟨evs, h1, fun t => ?_⟩
  rw [h2 t]
  exact ⟨(C95_recorded h hb).symm, fun hn => C95_sorted h hn⟩

/-- Thread 1 logs one event and deregisters, three times, in a ring of two chunks, one tick apart. -/
def leavingTimed : List (Option (Nat × TLog.Choice Nat)) :=
  quick (TLog.starts TLog.ring2) ++ quick (TLog.registers 1 ['a'] ++ TLog.logs 1 0 11 ++ (1, .deregister) :: TLog.steps 1 2) ++
  [none] ++ quick (TLog.registers 1 ['a'] ++ TLog.logs 1 1 11 ++ (1, .deregister) :: TLog.steps 1 2) ++
  [none] ++ quick (TLog.registers 1 ['a'] ++ TLog.logs 1 2 12)

/-- C95 for reading a ring is violated: event 2, of time 2, is read before event 1, of time 1, of the same
thread. -/
theorem C95_refuted_ring : ∃ s : St Nat, Reachable (· + 100) (fun _ => none) s ∧ s.log.stored 0 1 = [0, 1, 2] ∧
    s.times 0 1 = [0, 1, 2] ∧ TLog.Reads (s.log.heap 0) [(2, 101), (1, 101)] := by
  obtain ⟨s, h, p⟩ := play_check (tid := (· + 100)) (given := fun _ => none) (l := leavingTimed) (p := fun s =>
    s.log.stored 0 1 == [0, 1, 2] && s.times 0 1 == [0, 1, 2] && s.log.contents 0 == [(1, [2]), (1, [1])])
    (by decide +kernel)
  simp only [Bool.and_eq_true, beq_iff_eq] at p
  obtain ⟨⟨p1, p2⟩, p3⟩ := p
  refine ⟨s, h, p1, p2, ?_⟩
  have := C19_iterate _ _ ((C95_log h).1.data.bufs 0).holds
  rw [p3] at this
  exact this

/-- Reading after the two runs of `twoTimed`. -/
example : ∃ s : St Nat, Reachable (· + 100) measured9 s ∧ (s.log.heap 1).mode = .fixed ∧
    TLog.Reads (s.log.heap 1) [(7, 101)] ∧ s.times 1 1 = [7] := by
  obtain ⟨s, h, p⟩ := play_check (tid := (· + 100)) (given := measured9) (l := twoTimed) (p := fun s =>
    (s.log.heap 1).mode == .fixed && s.times 1 1 == [7] && s.log.contents 1 == [(1, [7])]) (by decide +kernel)
  simp only [Bool.and_eq_true, beq_iff_eq] at p
  obtain ⟨⟨p1, p2⟩, p3⟩ := p
  refine ⟨s, h, p1, ?_, p2⟩
  have := C19_iterate _ _ ((C95_log h).1.data.bufs 1).holds
  rw [p3] at this
  exact this

end Phosphor.Clock
