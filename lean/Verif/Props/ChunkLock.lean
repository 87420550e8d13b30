import Verif.Model.ChunkLock
/-
Properties C23, C24: the chunk lock.
-/
namespace Phosphor.ChunkLock

/-- Does a thread at this program counter hold the lock? -/
def Pc.holds : Pc → Bool
  | .heldS | .heldM => true
  | _ => false

/-- Invariant: the lock word says who holds the lock. -/
structure Inv (s : St) : Prop where
  slave : s.state = .slaveLocked ↔ ∃ t, s.pc t = .heldS
  master : s.state = .masterLocked ↔ ∃ t, s.pc t = .heldM
  unique : ∀ t u, (s.pc t).holds = true → (s.pc u).holds = true → t = u
  head : ∀ t, s.pc t = .tryS → s.state ∈ s.seen t
  failed : ∀ t l, (t, false, l) ∈ s.tries → .masterLocked ∈ l

theorem inv_init : Inv St.init := by
  refine ⟨⟨?_, ?_⟩, ⟨?_, ?_⟩, ?_, ?_, ?_⟩
  · intro h; cases h
  · rintro ⟨t, h⟩; cases h
  · intro h; cases h
  · rintro ⟨t, h⟩; cases h
  · intro t u h; cases h
  · intro t h; cases h
  · intro t l h; cases h

/-- Nobody holds the lock when the word is `Unlocked`. -/
theorem Inv.free {s : St} (h : Inv s) (hs : s.state = .unlocked) (t : Nat) :
    s.pc t ≠ .heldS ∧ s.pc t ≠ .heldM := by
  constructor
  · intro ht
    have := h.slave.2 ⟨t, ht⟩
    rw [hs] at this; cases this
  · intro ht
    have := h.master.2 ⟨t, ht⟩
    rw [hs] at this; cases this

/-- A step that changes neither the lock word nor the holders. -/
theorem inv_stay {s s' : St} (h : Inv s) (hst : s'.state = s.state)
    (hpc : ∀ t, s'.pc t = .heldS ↔ s.pc t = .heldS)
    (hpc' : ∀ t, s'.pc t = .heldM ↔ s.pc t = .heldM)
    (hh : ∀ t, s'.pc t = .tryS → s'.state ∈ s'.seen t)
    (hf : ∀ t l, (t, false, l) ∈ s'.tries → .masterLocked ∈ l) : Inv s' := by
  refine ⟨?_, ?_, ?_, hh, hf⟩
  · rw [hst, h.slave]; simp only [hpc]
  · rw [hst, h.master]; simp only [hpc']
  · intro t u ht hu
    have key : ∀ t, (s'.pc t).holds = true → (s.pc t).holds = true := by
      intro t ht
      cases hp : s'.pc t with
      | heldS => rw [(hpc t).1 hp]; rfl
      | heldM => rw [(hpc' t).1 hp]; rfl
      | _ => rw [hp] at ht; cases ht
    exact h.unique t u (key t ht) (key u hu)

/-- A step by which `t` acquires the lock in role `p`. -/
theorem inv_acquire {s s' : St} {t : Nat} {p : Pc} (h : Inv s) (hfree : s.state = .unlocked)
    (hp : (p = .heldS ∧ s'.state = .slaveLocked) ∨ (p = .heldM ∧ s'.state = .masterLocked))
    (hpc : s'.pc = setf s.pc t p)
    (hh : ∀ t, s'.pc t = .tryS → s'.state ∈ s'.seen t)
    (hf : ∀ t l, (t, false, l) ∈ s'.tries → .masterLocked ∈ l) : Inv s' := by
  have hnone := h.free hfree
  have hother : ∀ u, u ≠ t → s'.pc u = s.pc u := by
    intro u hu; rw [hpc, setf_ne _ _ hu]
  have hself : s'.pc t = p := by rw [hpc, setf_self]
  have honly : ∀ u, (s'.pc u).holds = true → u = t := by
    intro u hu
    apply Classical.byContradiction
    intro hne
    rw [hother u hne] at hu
    cases hq : s.pc u with
    | heldS => exact (hnone u).1 hq
    | heldM => exact (hnone u).2 hq
    | _ => rw [hq] at hu; cases hu
  rcases hp with ⟨rfl, hs⟩ | ⟨rfl, hs⟩
  · refine ⟨⟨fun _ => ⟨t, hself⟩, fun _ => hs⟩, ⟨?_, ?_⟩, ?_, hh, hf⟩
    · intro h'; rw [hs] at h'; cases h'
    · rintro ⟨u, hu⟩
      have : u = t := honly u (by rw [hu]; rfl)
      subst this; rw [hself] at hu; cases hu
    · intro a b ha hb; rw [honly a ha, honly b hb]
  · refine ⟨⟨?_, ?_⟩, ⟨fun _ => ⟨t, hself⟩, fun _ => hs⟩, ?_, hh, hf⟩
    · intro h'; rw [hs] at h'; cases h'
    · rintro ⟨u, hu⟩
      have : u = t := honly u (by rw [hu]; rfl)
      subst this; rw [hself] at hu; cases hu
    · intro a b ha hb; rw [honly a ha, honly b hb]

/-- A step by which the holder `t` releases the lock. -/
theorem inv_release {s s' : St} {t : Nat} (h : Inv s) (hown : (s.pc t).holds = true)
    (hs : s'.state = .unlocked) (hpc : s'.pc = setf s.pc t .idle)
    (hh : ∀ t, s'.pc t = .tryS → s'.state ∈ s'.seen t)
    (hf : ∀ t l, (t, false, l) ∈ s'.tries → .masterLocked ∈ l) : Inv s' := by
  have hnone : ∀ u, (s'.pc u).holds = false := by
    intro u
    by_cases hu : u = t
    · subst hu; rw [hpc, setf_self]; rfl
    · rw [hpc, setf_ne _ _ hu]
      cases hx : (s.pc u).holds with
      | false => rfl
      | true => exact absurd (h.unique u t hx hown) hu
  refine ⟨⟨?_, ?_⟩, ⟨?_, ?_⟩, ?_, hh, hf⟩
  · intro h'; rw [hs] at h'; cases h'
  · rintro ⟨u, hu⟩; have := hnone u; rw [hu] at this; cases this
  · intro h'; rw [hs] at h'; cases h'
  · rintro ⟨u, hu⟩; have := hnone u; rw [hu] at this; cases this
  · intro a b ha; rw [hnone a] at ha; cases ha

theorem lockRound_true {st d : State} {sp : Bool} (h : (lockRound st d sp).2 = true) :
    st = .unlocked ∧ (lockRound st d sp).1 = d := by
  cases st <;> cases sp <;> simp_all [lockRound, casWeak]

theorem lockRound_false {st d : State} {sp : Bool} (h : ¬ (lockRound st d sp).2 = true) :
    (lockRound st d sp).1 = st := by
  cases st <;> cases sp <;> simp_all [lockRound, casWeak]

theorem tryRound_cases (st : State) (sp : Bool) :
    (st = .unlocked ∧ tryRound st sp = (.slaveLocked, some true)) ∨
    (st = .masterLocked ∧ tryRound st sp = (.masterLocked, some false)) ∨
    (st ≠ .masterLocked ∧ tryRound st sp = (st, none)) := by
  cases st <;> cases sp <;> simp [tryRound, casWeak]

theorem inv_step {s s' : St} (h : Inv s) (hst : Step s s') : Inv s' := by
  cases hst with
  | @callLockS t hp =>
    refine inv_stay h rfl ?_ ?_ ?_ h.failed
    · intro u; by_cases hu : u = t
      · subst hu; simp [hp]
      · simp [setf_ne _ _ hu]
    · intro u; by_cases hu : u = t
      · subst hu; simp [hp]
      · simp [setf_ne _ _ hu]
    · intro u hu'; by_cases hu : u = t
      · subst hu; simp at hu'
      · simp only [setf_ne _ _ hu] at hu'; exact h.head u hu'
  | @callLockM t hp =>
    refine inv_stay h rfl ?_ ?_ ?_ h.failed
    · intro u; by_cases hu : u = t
      · subst hu; simp [hp]
      · simp [setf_ne _ _ hu]
    · intro u; by_cases hu : u = t
      · subst hu; simp [hp]
      · simp [setf_ne _ _ hu]
    · intro u hu'; by_cases hu : u = t
      · subst hu; simp at hu'
      · simp only [setf_ne _ _ hu] at hu'; exact h.head u hu'
  | @callTryS t hp =>
    refine inv_stay h rfl ?_ ?_ ?_ h.failed
    · intro u; by_cases hu : u = t
      · subst hu; simp [hp]
      · simp [setf_ne _ _ hu]
    · intro u; by_cases hu : u = t
      · subst hu; simp [hp]
      · simp [setf_ne _ _ hu]
    · intro u hu'; by_cases hu : u = t
      · subst hu; simp
      · simp only [setf_ne _ _ hu] at hu' ⊢; exact h.head u hu'
  | @lockS t sp hp =>
    by_cases hr : (lockRound s.state .slaveLocked sp).2 = true
    · obtain ⟨h1, h2⟩ := lockRound_true hr
      exact inv_acquire (t := t) (p := .heldS) h h1 (Or.inl ⟨rfl, h2⟩) (by simp [hr])
        (fun u _ => List.Mem.head _) h.failed
    · have h2 := lockRound_false hr
      exact inv_stay h h2 (by simp [hr]) (by simp [hr]) (fun u _ => List.Mem.head _) h.failed
  | @lockM t sp hp =>
    by_cases hr : (lockRound s.state .masterLocked sp).2 = true
    · obtain ⟨h1, h2⟩ := lockRound_true hr
      exact inv_acquire (t := t) (p := .heldM) h h1 (Or.inr ⟨rfl, h2⟩) (by simp [hr])
        (fun u _ => List.Mem.head _) h.failed
    · have h2 := lockRound_false hr
      exact inv_stay h h2 (by simp [hr]) (by simp [hr]) (fun u _ => List.Mem.head _) h.failed
  | @tryAgain t sp hp hr =>
    rcases tryRound_cases s.state sp with ⟨_, h2⟩ | ⟨_, h2⟩ | ⟨_, h2⟩
    · rw [h2] at hr; cases hr
    · rw [h2] at hr; cases hr
    · exact inv_stay h (by simp [h2]) (fun _ => Iff.rfl) (fun _ => Iff.rfl)
        (fun u _ => List.Mem.head _) h.failed
  | @tryRet t sp r hp hr =>
    rcases tryRound_cases s.state sp with ⟨h1, h2⟩ | ⟨h1, h2⟩ | ⟨_, h2⟩
    · rw [h2] at hr; cases hr
      refine inv_acquire (t := t) (p := .heldS) h h1 (Or.inl ⟨rfl, by simp [h2]⟩) (by simp)
        (fun u _ => List.Mem.head _) ?_
      intro u l hm
      rcases List.mem_cons.1 hm with hm | hm
      · cases hm
      · exact h.failed u l hm
    · rw [h2] at hr; cases hr
      refine inv_stay h (by rw [h2]; exact h1.symm) ?_ ?_ (fun u _ => List.Mem.head _) ?_
      · intro u; by_cases hu : u = t
        · subst hu; simp [hp]
        · simp [setf_ne _ _ hu]
      · intro u; by_cases hu : u = t
        · subst hu; simp [hp]
        · simp [setf_ne _ _ hu]
      · intro u l hm
        rcases List.mem_cons.1 hm with hm | hm
        · cases hm
          apply List.Mem.tail
          rw [← h1]; exact h.head _ hp
        · exact h.failed u l hm
    · rw [h2] at hr; cases hr
  | @unlockS t hp =>
    exact inv_release (t := t) h (by rw [hp]; rfl) rfl rfl (fun u _ => List.Mem.head _) h.failed
  | @unlockM t hp =>
    exact inv_release (t := t) h (by rw [hp]; rfl) rfl rfl (fun u _ => List.Mem.head _) h.failed

theorem inv_reachable {s : St} (h : Reachable s) : Inv s := by
  induction h with
  | init => exact inv_init
  | step _ hst ih => exact inv_step ih hst

/-- C23. In every reachable state at most one thread holds the lock, in whichever role. -/
theorem C23_mutual_exclusion {s : St} (h : Reachable s) (t u : Nat)
    (ht : (s.pc t).holds = true) (hu : (s.pc u).holds = true) : t = u :=
  (inv_reachable h).unique t u ht hu

/-- C23: the lock word tells exactly whether, and in which role, somebody holds the lock. -/
theorem C23_word {s : St} (h : Reachable s) :
    (s.state = .slaveLocked ↔ ∃ t, s.pc t = .heldS) ∧
    (s.state = .masterLocked ↔ ∃ t, s.pc t = .heldM) ∧
    (s.state = .unlocked ↔ ∀ t, (s.pc t).holds = false) := by
  have hi := inv_reachable h
  refine ⟨hi.slave, hi.master, ?_, ?_⟩
  · intro hs t
    have := hi.free hs t
    cases hp : s.pc t <;> first | rfl | exact absurd hp this.1 | exact absurd hp this.2
  · intro hn
    cases hs : s.state with
    | unlocked => rfl
    | slaveLocked => obtain ⟨t, ht⟩ := hi.slave.1 hs; have := hn t; rw [ht] at this; cases this
    | masterLocked => obtain ⟨t, ht⟩ := hi.master.1 hs; have := hn t; rw [ht] at this; cases this

/-- C24: whenever `tryLockSlave` has returned false, the lock was master locked at some
moment of that call; a call that returns true leaves the caller holding the slave lock. -/
theorem C24_try_fails_only_under_master {s : St} (h : Reachable s) (t : Nat) (l : List State)
    (ht : (t, false, l) ∈ s.tries) : .masterLocked ∈ l :=
  (inv_reachable h).failed t l ht

/-- C24: a `tryLockSlave` call that returns `r` ends with the caller holding the slave lock
if `r` is true and holding nothing otherwise. -/
theorem C24_try_result {s s' : St} (hst : Step s s') (t : Nat) (r : Bool)
    (l : List State) (hp : s'.tries = (t, r, l) :: s.tries) :
    s'.pc t = (if r then .heldS else .idle) ∧ (r = true → s'.state = .slaveLocked) := by
  have hlen := congrArg List.length hp
  cases hst with
  | @tryRet t' sp r' hpc hr =>
    simp only [List.cons.injEq, and_true, Prod.mk.injEq] at hp
    obtain ⟨rfl, rfl, _⟩ := hp
    refine ⟨by simp, ?_⟩
    rintro rfl
    rcases tryRound_cases s.state sp with ⟨_, h2⟩ | ⟨_, h2⟩ | ⟨_, h2⟩
    · simp [h2]
    · rw [h2] at hr; cases hr
    · rw [h2] at hr; cases hr
  | _ => simp at hlen

/-- C24: the lock word only makes the four documented transitions
(chunk_lock.h, class comment): Unlocked↔SlaveLocked and Unlocked↔MasterLocked. -/
theorem C24_transitions {s s' : St} (h : Reachable s) (hst : Step s s')
    (hne : s'.state ≠ s.state) :
    (s.state = .unlocked ∧ s'.state = .slaveLocked) ∨
    (s.state = .slaveLocked ∧ s'.state = .unlocked) ∨
    (s.state = .unlocked ∧ s'.state = .masterLocked) ∨
    (s.state = .masterLocked ∧ s'.state = .unlocked) := by
  have hi := inv_reachable h
  cases hst with
  | callLockS | callLockM | callTryS => exact absurd rfl hne
  | @lockS t sp hp =>
    by_cases hr : (lockRound s.state .slaveLocked sp).2 = true
    · exact Or.inl (lockRound_true hr)
    · exact absurd (lockRound_false hr) hne
  | @lockM t sp hp =>
    by_cases hr : (lockRound s.state .masterLocked sp).2 = true
    · exact Or.inr (Or.inr (Or.inl (lockRound_true hr)))
    · exact absurd (lockRound_false hr) hne
  | @tryAgain t sp hp hr =>
    rcases tryRound_cases s.state sp with ⟨_, h2⟩ | ⟨_, h2⟩ | ⟨_, h2⟩
    · rw [h2] at hr; cases hr
    · rw [h2] at hr; cases hr
    · exact absurd (by simp [h2]) hne
  | @tryRet t sp r hp hr =>
    rcases tryRound_cases s.state sp with ⟨h1, h2⟩ | ⟨h1, h2⟩ | ⟨_, h2⟩
    · exact Or.inl ⟨h1, by simp [h2]⟩
    · exact absurd (by rw [h2]; exact h1.symm) hne
    · rw [h2] at hr; cases hr
  | @unlockS t hp => exact Or.inr (Or.inl ⟨hi.slave.2 ⟨t, hp⟩, rfl⟩)
  | @unlockM t hp => exact Or.inr (Or.inr (Or.inr ⟨hi.master.2 ⟨t, hp⟩, rfl⟩))

/-- C24, liveness side: from any reachable state in which nobody holds the lock, a waiting
locker acquires it in one (non-spurious) step; `tryLockSlave` under a master returns at
once. -/
theorem C24_progress {s : St} (h : Reachable s) (t : Nat) :
    (s.pc t = .lockM → (∀ u, (s.pc u).holds = false) → ∃ s', Step s s' ∧ s'.pc t = .heldM) ∧
    (s.pc t = .lockS → (∀ u, (s.pc u).holds = false) → ∃ s', Step s s' ∧ s'.pc t = .heldS) ∧
    (s.pc t = .tryS → (∀ u, (s.pc u).holds = false) → ∃ s', Step s s' ∧ s'.pc t = .heldS) ∧
    (s.pc t = .tryS → (∃ u, s.pc u = .heldM) → ∃ s', Step s s' ∧ s'.pc t = .idle) := by
  have hw := C23_word h
  refine ⟨?_, ?_, ?_, ?_⟩
  · intro hp hn
    refine ⟨_, .lockM (sp := false) hp, ?_⟩
    simp [hw.2.2.2 hn, lockRound, casWeak]
  · intro hp hn
    refine ⟨_, .lockS (sp := false) hp, ?_⟩
    simp [hw.2.2.2 hn, lockRound, casWeak]
  · intro hp hn
    have hs := hw.2.2.2 hn
    refine ⟨_, .tryRet (sp := false) (r := true) hp (by simp [hs, tryRound, casWeak]), ?_⟩
    simp
  · intro hp hm
    have hs := hw.2.1.2 hm
    refine ⟨_, .tryRet (sp := false) (r := false) hp (by simp [hs, tryRound, casWeak]), ?_⟩
    simp

/-- A schedule in which a try fails under a master. -/
example : ∃ s, Reachable s ∧ (1, false, [State.masterLocked, .masterLocked]) ∈ s.tries ∧
    s.pc 0 = .heldM := by
  refine ⟨_, .step (.step (.step (.step .init (.callLockM (t := 0) rfl))
    (.lockM (t := 0) (sp := false) rfl)) (.callTryS (t := 1) rfl))
    (.tryRet (t := 1) (sp := false) (r := false) rfl rfl), List.Mem.head _, rfl⟩

end Phosphor.ChunkLock
