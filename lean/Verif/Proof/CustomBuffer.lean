import Verif.Model.CustomBuffer
import Verif.Proof.TraceLog
/-
The steps of the log that do not touch its buffer.
-/
namespace Phosphor.Custom
open TLog
variable {ε : Type} {tid : Nat → Nat}

/-- What a step of thread `t` that does not touch the buffer leaves alone. -/
structure SameCore (l l' : St ε) (t : Nat) : Prop where
  buffer : l'.buffer = l.buffer
  status : l'.status = l.status
  nextBuf : l'.nextBuf = l.nextBuf
  pcs : ∀ u, u ≠ t → l'.pc u = l.pc u
  chunk : ∀ u, (l'.tenant u).chunk = (l.tenant u).chunk ∨
    (l'.tenant u).chunk = none ∧ (l.buffer = none ∨ l.mastered = some u)
  enabled : l'.enabled = true → l.enabled = true ∨ (l.pc t).isEnable = true
  comm : (l'.pc t).committed = true →
    (l.pc t).committed = true ∨ l.enabled = true ∨ (l'.tenant t).chunk ≠ none
  notEnable : (l'.pc t).isEnable = false
  notWait : ∀ e p, l'.pc t ≠ .getWait e p

/-- In addition the thread is not about to add an event. -/
structure Same (l l' : St ε) (t : Nat) : Prop where
  core : SameCore l l' t
  notStore : ∀ e, l'.pc t ≠ .store e

/-- The step is not one of those that touch the buffer. -/
def plainPc (l : St ε) (t : Nat) : Prop :=
  match l.pc t with
  | .checkChunk _ | .retDo _ _ | .getDo _ _ | .getWait _ _ | .store _ => False
  | .held (.startCreate _) _ => False
  | .deregBody => (l.tenant t).initialised = false ∨ (l.tenant t).chunk = none ∨ l.buffer = none
  | _ => True

theorem Same.goto' {l l' : St ε} {t : Nat} {q : Pc ε} (h1 : l'.buffer = l.buffer)
    (h2 : l'.status = l.status) (h3 : l'.nextBuf = l.nextBuf) (h4 : l'.pc = l.pc)
    (h5 : ∀ u, (l'.tenant u).chunk = (l.tenant u).chunk ∨
      (l'.tenant u).chunk = none ∧ (l.buffer = none ∨ l.mastered = some u))
    (h6 : l'.enabled = true → l.enabled = true ∨ (l.pc t).isEnable = true)
    (h7 : q.committed = true →
      (l.pc t).committed = true ∨ l.enabled = true ∨ (l'.tenant t).chunk ≠ none)
    (h8 : q.isEnable = false) (h9 : ∀ e p, q ≠ .getWait e p) (h10 : ∀ e, q ≠ .store e) :
    Same l (l'.goto t q) t := by
  refine ⟨⟨h1, h2, h3, ?_, h5, h6, ?_, ?_, ?_⟩, ?_⟩
  · intro u hu; simp [St.goto, setf, hu, h4]
  all_goals simpa [St.goto, setf]

theorem Same.pop {l l' : St ε} {t : Nat} {st : List Frame} (h1 : l'.buffer = l.buffer)
    (h2 : l'.status = l.status) (h3 : l'.nextBuf = l.nextBuf) (h4 : l'.pc = l.pc)
    (h5 : l'.tenant = l.tenant)
    (h6 : l'.enabled = true → l.enabled = true ∨ (l.pc t).isEnable = true) :
    Same l (l'.pop t st) t := by
  unfold St.pop
  split <;> exact Same.goto' h1 h2 h3 h4 (fun u => .inl (by rw [h5])) h6 (by simp [Pc.committed])
    (by simp [Pc.isEnable]) (by simp) (by simp)

theorem Same.unwind {l l' : St ε} {t : Nat} {st : List Frame} (h1 : l'.buffer = l.buffer)
    (h2 : l'.status = l.status) (h3 : l'.nextBuf = l.nextBuf) (h4 : l'.pc = l.pc)
    (h5 : l'.tenant = l.tenant)
    (h6 : l'.enabled = true → l.enabled = true ∨ (l.pc t).isEnable = true) :
    Same l (l'.unwind t st) t := by
  induction st with
  | nil =>
    exact Same.goto' (q := .release) h1 h2 h3 h4 (fun u => .inl (by rw [h5])) h6
      (by simp [Pc.committed]) (by simp [Pc.isEnable]) (by simp) (by simp)
  | cons f st ih =>
    cases f with
    | resumeUser =>
      exact Same.goto' (q := .held .user st) h1 h2 h3 h4 (fun u => .inl (by rw [h5])) h6
        (by simp [Pc.committed]) (by simp [Pc.isEnable]) (by simp) (by simp)
    | finishStart n => exact ih

/-- Nothing but the program counter of `t` (and its lock, the owner, the history) changes. -/
macro "same" : tactic => `(tactic|
  (refine Same.goto' rfl rfl rfl rfl ?_ ?_ ?_ ?_ ?_ ?_ <;>
    simp_all [Pc.committed, Pc.isEnable, St.setLock, St.setChunk, setf] <;> grind))

theorem Same.self {l l' : St ε} {t : Nat} (h1 : l'.buffer = l.buffer)
    (h2 : l'.status = l.status) (h3 : l'.nextBuf = l.nextBuf) (h4 : l'.pc = l.pc)
    (h5 : l'.tenant = l.tenant) (h6 : l'.enabled = l.enabled)
    (h8 : (l.pc t).isEnable = false) (h9 : ∀ e p, l.pc t ≠ .getWait e p)
    (h10 : ∀ e, l.pc t ≠ .store e) : Same l l' t :=
  ⟨⟨h1, h2, h3, fun u _ => by rw [h4], fun u => .inl (by rw [h5]), fun h => .inl (h6 ▸ h),
    fun h => .inl (by rwa [h4] at h), by rw [h4]; exact h8, by rw [h4]; exact h9⟩, by rw [h4]; exact h10⟩

theorem same_logStep {l l' : St ε} {t : Nat} {sp : Bool} (hp : plainPc l t)
    (hs : l.logStep tid t sp = .to l') : Same l l' t := by
  unfold St.logStep at hs
  unfold plainPc at hp
  split at hs
  case h_1 e h => cases hs; split <;> same
  case h_2 e h =>
    cases hl : (l.tenant t).lock <;> cases sp <;>
      simp [hl, ChunkLock.tryRound, ChunkLock.casWeak] at hs <;> cases hs
    all_goals first
      | exact Same.self rfl rfl rfl rfl rfl rfl (by simp [h, Pc.isEnable]) (by simp [h]) (by simp [h])
      | same
  case h_3 e h => cases hs; split <;> same
  case h_4 e h => simp [h] at hp
  case h_5 e h =>
    split at hs
    · cases hs; split <;> same
    · cases hs; same
  case h_6 e h => split at hs <;> cases hs; same
  case h_7 e p h => simp [h] at hp
  case h_8 e h => cases hs; split <;> same
  case h_9 e h => cases hs; split <;> same
  case h_10 e h => split at hs <;> cases hs; same
  case h_11 e p h => simp [h] at hp
  case h_12 e p h => simp [h] at hp
  case h_13 f h => cases hs; same
  case h_14 f g h => cases hs; same
  case h_15 f g h => split at hs <;> cases hs <;> same
  case h_16 f g h =>
    split at hs
    · cases hs; same
    · split at hs
      · cases hs; unfold St.beginStop; same
      · cases hs; same
  case h_17 e h => simp [h] at hp
  case h_18 h => cases hs; same
  case h_19 => cases hs

theorem same_heldStep {l l' : St ε} {t : Nat} {sp : Bool} (hc : Ctl l) (hp : plainPc l t)
    (hs : l.heldStep tid t sp = .to l') : Same l l' t := by
  unfold St.heldStep at hs
  unfold plainPc at hp
  split at hs
  case h_1 n h =>
    cases hs
    unfold St.registerBody
    split
    · same
    · dsimp only; split <;> same
  case h_2 h =>
    rw [h] at hp
    simp only at hp
    unfold St.deregisterBody at hs
    cases hi : (l.tenant t).initialised
    · simp [hi] at hs; cases hs; same
    · simp only [hi, if_true] at hs
      have hr : l.returnOwn t = some l := by
        unfold St.returnOwn
        rcases hp with hp | hp | hp
        · simp [hi] at hp
        · simp [hp]
        · simp only [hp]; split <;> rfl
      simp only [hr] at hs
      have hk : ∀ u, (setf l.tenant t { l.tenant t with chunk := none, initialised := false } u).chunk
          = (l.tenant u).chunk ∨ (setf l.tenant t { l.tenant t with chunk := none, initialised := false } u).chunk
            = none ∧ (l.buffer = none ∨ l.mastered = some u) := by
        intro u
        rcases hp with hp | hp | hp
        · simp [hi] at hp
        · left; simp only [setf]; split
          · rename_i hu; subst hu; simp [hp]
          · rfl
        · simp only [setf]; split
          · right; simp [hp]
          · left; rfl
      cases he : l.enabled <;> simp [he] at hs <;> cases hs
      all_goals
        refine Same.goto' rfl rfl rfl rfl hk ?_ ?_ ?_ ?_ ?_ <;> simp_all [Pc.committed, Pc.isEnable]
  case h_3 h => cases hs; same
  case h_4 sh st h =>
    split at hs
    · cases hs; same
    · cases hs; exact Same.pop rfl rfl rfl rfl rfl (fun h => .inl h)
  case h_5 u rest sh st h =>
    split at hs
    · cases hs; same
    · cases hl : (l.tenant u).lock <;>
        simp [hl, ChunkLock.lockRound, ChunkLock.casWeak] at hs <;> cases hs
      all_goals first
        | exact Same.self rfl rfl rfl rfl rfl rfl (by simp [h, Pc.isEnable]) (by simp [h]) (by simp [h])
        | same
  case h_6 u rest sh st h =>
    cases hs
    have ho : l.owner = some t := (hc.own t).2 (by simp [h, Pc.holdsMutex])
    have hm : l.mastered = some u := by simp [St.mastered, ho, h, Pc.mastering]
    same
  case h_7 u rest sh st h => cases hs; same
  case h_8 n st h => simp [h] at hp
  case h_9 st h => cases hs; exact Same.pop rfl rfl rfl rfl rfl (fun _ => .inr (by simp [h, Pc.isEnable]))
  case h_10 => cases hs

theorem same_step {l l' : St ε} {t : Nat} (hc : Ctl l) (hp : plainPc l t)
    (hs : l.next true tid t .step = .to l') : Same l l' t := by
  unfold St.next at hs
  dsimp only at hs
  split at hs
  · exact same_heldStep hc hp hs
  · exact same_logStep hp hs

theorem same_spurious {l l' : St ε} {t : Nat} (hc : Ctl l) (hp : plainPc l t)
    (hs : l.next true tid t .spurious = .to l') : Same l l' t := by
  unfold St.next at hs
  dsimp only at hs
  split at hs
  · exact same_heldStep hc hp hs
  · exact same_logStep hp hs

/-- The choices that neither go on nor touch the buffer. -/
def plainChoice : Choice ε → Bool
  | .log _ | .lock | .register _ | .deregister | .stop _ | .ret | .throw => true
  | _ => false

theorem isIdle_pc {l : St ε} {t : Nat} (h : l.isIdle t = true) : l.pc t = .idle := by
  unfold St.isIdle at h
  split at h
  · assumption
  · cases h

theorem same_choice {l l' : St ε} {t : Nat} {c : Choice ε} (hp : plainChoice c = true)
    (hs : l.next true tid t c = .to l') : Same l l' t := by
  cases c <;> simp only [plainChoice] at hp <;> try contradiction
  case log e =>
    simp only [St.next] at hs
    split at hs <;> cases hs
    rename_i h
    have h := isIdle_pc h
    same
  case lock =>
    simp only [St.next] at hs
    split at hs <;> cases hs
    rename_i h
    have h := isIdle_pc h.1
    same
  case register n =>
    simp only [St.next] at hs
    split at hs <;> cases hs
    rename_i h
    have h := isIdle_pc h.1
    same
  case deregister =>
    simp only [St.next] at hs
    split at hs <;> cases hs
    rename_i h
    have h := isIdle_pc h.1
    same
  case stop sh =>
    simp only [St.next] at hs
    split at hs
    · rename_i st h
      split at hs
      · cases hs; unfold St.beginStop; same
      · cases hs
        exact Same.self rfl rfl rfl rfl rfl rfl (by simp [h, Pc.isEnable]) (by simp [h]) (by simp [h])
    · cases hs
  case ret =>
    simp only [St.next] at hs
    split at hs
    · cases hs; exact Same.pop rfl rfl rfl rfl rfl (fun h => .inl h)
    · cases hs
  case throw =>
    simp only [St.next] at hs
    split at hs
    · cases hs; exact Same.unwind rfl rfl rfl rfl rfl (fun h => .inl h)
    · cases hs

/-- A step that does not touch the buffer is defined. -/
theorem defined_step {l : St ε} {t : Nat} {sp : Bool} (hc : Ctl l) (hp : plainPc l t) :
    l.next true tid t (if sp then .spurious else .step) ≠ .ub := by
  have hl : ∀ sp, l.logStep tid t sp ≠ .ub := by
    intro sp hs
    unfold St.logStep at hs
    unfold plainPc at hp
    split at hs
    case h_2 e h =>
      split at hs <;> cases hs
    case h_4 e h => simp [h] at hp
    case h_6 e h =>
      split at hs
      · rename_i hb
        have h1 : (l.pc t).committed = true := by simp [h, Pc.committed]
        have h2 : (l.tenant t).chunk ≠ none := hc.needChunk t (by simp [h, Pc.needChunk])
        obtain ⟨⟨b, i⟩, h3⟩ := Option.ne_none_iff_exists'.1 h2
        rw [hc.chunkBuf t b i h3] at hb; cases hb
      · cases hs
    case h_7 e p h => simp [h] at hp
    case h_10 e h =>
      split at hs
      · rename_i hb
        have h1 : (l.pc t).committed = true := by simp [h, Pc.committed]
        rcases hc.comm t (.inr h1) with h2 | h2
        · exact hc.hasBuf h2 hb
        · unfold St.pend at h2
          split at h2
          · simp at h2
          · rename_i o ho
            refine hc.hasBuf' o ?_ hb
            revert h2
            generalize l.pc o = q
            intro h2
            unfold Pc.pending at h2
            split at h2 <;> simp_all [Pc.needsBuffer]
      · cases hs
    case h_11 e p h => simp [h] at hp
    case h_12 e p h => simp [h] at hp
    case h_17 e h => simp [h] at hp
    all_goals (try cases hs) <;> (try (split at hs <;> try cases hs)) <;>
      (try (split at hs <;> cases hs))
  have hh : ∀ sp, l.heldStep tid t sp ≠ .ub := by
    intro sp hs
    unfold St.heldStep at hs
    unfold plainPc at hp
    split at hs
    case h_2 h =>
      rw [h] at hp
      simp only at hp
      unfold St.deregisterBody at hs
      cases hi : (l.tenant t).initialised
      · simp [hi] at hs
      · simp only [hi, if_true] at hs
        have hr : l.returnOwn t = some l := by
          unfold St.returnOwn
          rcases hp with hp | hp | hp
          · simp [hi] at hp
          · simp [hp]
          · simp only [hp]; split <;> rfl
        simp only [hr] at hs
        cases he : l.enabled <;> simp [he] at hs
    all_goals (try cases hs) <;> (try (split at hs <;> try cases hs)) <;>
      (try (split at hs <;> cases hs))
  cases sp
  · intro hs
    simp only [St.next, Bool.false_eq_true, if_false] at hs
    split at hs
    · exact hh _ hs
    · exact hl _ hs
  · intro hs
    simp only [St.next, if_true] at hs
    split at hs
    · exact hh _ hs
    · exact hl _ hs

end Phosphor.Custom
