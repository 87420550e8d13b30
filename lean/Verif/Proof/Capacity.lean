import Verif.Proof.TraceLogRingMany
import Mathlib.Tactic.Ring
/-
A buffer while nobody has been refused a chunk or had to wait for one: which of its chunks are full.
-/
namespace Phosphor.TLog
variable {ε : Type} {tid : Nat → Nat} {s s' : St ε} {b : Nat}

/-- The buffer that had no chunk left for the thread: the thread is waiting for one, or has not yet
dealt with the refusal. -/
def Pc.refusedBy : Pc ε → Option Nat
  | .getWait _ p => some p
  | .failed f | .failUnlock f _ | .tryMutex f _ | .compare f _ => f
  | _ => none

/-- A run of the buffer `b` in which nobody has been refused a chunk or waited for one. -/
structure Fill (b : Nat) (s : St ε) : Prop where
  en : s.enabled = true
  buf : s.buffer = some b
  count : (s.heap b).counter ≤ (s.heap b).chunks.length
  full : ∀ u i evs, (s.contents b)[i]? = some (u, evs) → (s.tenant u).chunk = some (b, i) ∨ evs.length = chunkSize
  ret : ∀ u i evs, (s.pc u).returning = true → (s.tenant u).chunk = some (b, i) →
    (s.contents b)[i]? = some (u, evs) → evs.length = chunkSize
  fresh : ∀ u i, (s.tenant u).chunk = some (b, i) → (s.contents b)[i]? = some (u, []) → (s.pc u).isStore = true
  last : ∀ u i, (s.tenant u).chunk = some (b, i) → ∀ (j v : Nat) (evs : List ε), (s.contents b)[j]? = some (v, evs) → i < j → v ≠ u
  all : ∀ u, eventsOf u (s.contents b) = s.stored b u
  nobody : ∀ u, (s.pc u).refusedBy ≠ some b
  stays : ∀ u, s.pc u ≠ .deregBody

/-- The buffer and the chunks are as before and thread `t` goes on to `q`. -/
theorem Fill.goto {t : Nat} {x : St ε} {q : Pc ε} (h : Fill b s) (he : x.enabled = s.enabled) (hb : x.buffer = s.buffer)
    (hh : x.heap b = s.heap b) (hc : x.contents b = s.contents b) (hsd : x.stored b = s.stored b) (hp : x.pc = s.pc)
    (ht : ∀ v, (x.tenant v).chunk = (s.tenant v).chunk) (hst : (s.pc t).isStore = false)
    (hq : q.returning = true → ∀ i evs, (s.tenant t).chunk = some (b, i) → (s.contents b)[i]? = some (t, evs) → evs.length = chunkSize)
    (hn : q.refusedBy ≠ some b) (hd : q ≠ .deregBody) : Fill b (x.goto t q) := by
  have hpc : ∀ v, v ≠ t → (x.goto t q).pc v = s.pc v := by
    intro v hv; rw [goto_other _ _ _ _ hv, hp]
  refine ⟨he.trans h.en, hb.trans h.buf, ?_, ?_, ?_, ?_, ?_, ?_, ?_, ?_⟩
  · show (x.heap b).counter ≤ (x.heap b).chunks.length; rw [hh]; exact h.count
  · intro u i evs hi
    replace hi : (x.contents b)[i]? = some (u, evs) := hi
    rw [hc] at hi
    show (x.tenant u).chunk = _ ∨ _
    rw [ht]; exact h.full u i evs hi
  · intro u i evs hr hk hi
    replace hi : (x.contents b)[i]? = some (u, evs) := hi
    rw [hc] at hi
    replace hk : (x.tenant u).chunk = some (b, i) := hk
    rw [ht] at hk
    by_cases hu : u = t
    · subst hu; rw [goto_pc] at hr; exact hq hr i evs hk hi
    · rw [hpc u hu] at hr; exact h.ret u i evs hr hk hi
  · intro u i hk hi
    replace hi : (x.contents b)[i]? = some (u, []) := hi
    rw [hc] at hi
    replace hk : (x.tenant u).chunk = some (b, i) := hk
    rw [ht] at hk
    have := h.fresh u i hk hi
    by_cases hu : u = t
    · subst hu; rw [hst] at this; cases this
    · rw [hpc u hu]; exact this
  · intro u i hk j v evs hj hij
    replace hj : (x.contents b)[j]? = some (v, evs) := hj
    rw [hc] at hj
    replace hk : (x.tenant u).chunk = some (b, i) := hk
    rw [ht] at hk
    exact h.last u i hk j v evs hj hij
  · intro u
    show eventsOf u (x.contents b) = x.stored b u
    rw [hc, hsd]; exact h.all u
  · intro u
    by_cases hu : u = t
    · subst hu; rw [goto_pc]; exact hn
    · rw [hpc u hu]; exact h.nobody u
  · intro u
    by_cases hu : u = t
    · subst hu; rw [goto_pc]; exact hd
    · rw [hpc u hu]; exact h.stays u

/-- A step of `t` in `logEvent`. -/
theorem Fill.logStep {t : Nat} {sp : Bool} (h : Fill b s) (hr : Reachable true tid s)
    (hl : (s.pc t).logging = true) (hs : s.logStep tid t sp = .to s')
    (hroom : ∀ e, s.pc t = .getDo e b → (s.heap b).counter < (s.heap b).chunks.length) : Fill b s' := by
  have go : ∀ {p q : Pc ε}, s.pc t = p → p.isStore = false → (q.returning = true → p.returning = true) →
      q.refusedBy ≠ some b → q ≠ .deregBody → Fill b (s.goto t q) := by
    intro p q hp h3 h4 h5 h6
    exact h.goto rfl rfl rfl rfl rfl rfl (fun _ => rfl) (by rw [hp]; exact h3)
      (fun hq i evs hk hi => h.ret t i evs (by rw [hp]; exact h4 hq) hk hi) h5 h6
  have lock : ∀ {q : Pc ε} (l : ChunkLock.State), (s.pc t).isStore = false →
      q.returning = false → q.refusedBy ≠ some b → q ≠ .deregBody → Fill b ((s.setLock t l).goto t q) := by
    intro q l hp h4 h5 h6
    exact h.goto rfl rfl rfl rfl rfl rfl (setLock_chunk s t · _) hp (fun hq => by rw [h4] at hq; cases hq) h5 h6
  unfold St.logStep at hs
  split at hs
  case h_1 e hp =>
    cases hs; split <;> exact go hp rfl (fun h => by cases h) (by simp [Pc.refusedBy]) (by simp)
  case h_2 e hp =>
    split at hs
    · cases hs; exact lock _ (by rw [hp]; rfl) rfl (by simp [Pc.refusedBy]) (by simp)
    · cases hs; exact go hp rfl (fun h => by cases h) (by simp [Pc.refusedBy]) (by simp)
    · cases hs; exact h
  case h_3 e hp =>
    cases hs; split <;> exact go hp rfl (fun h => by cases h) (by simp [Pc.refusedBy]) (by simp)
  case h_4 e hp =>
    split at hs
    · rename_i hc
      cases hs
      exact h.goto rfl rfl rfl rfl rfl rfl (fun _ => rfl) (by rw [hp]; rfl)
        (fun _ i evs hk => by rw [hc] at hk; cases hk) (by simp [Pc.refusedBy]) (by simp)
    · rename_i p i hc
      split at hs
      case isFalse => cases hs
      obtain ⟨c, evs, hc', hi, hh⟩ := hr.data.chunkAt hc
      rw [hc'] at hs
      cases hs
      split
      · rename_i hf
        refine h.goto rfl rfl rfl rfl rfl rfl (fun _ => rfl) (by rw [hp]; rfl) (fun _ j evs' hj hj' => ?_)
          (by simp [Pc.refusedBy]) (by simp)
        rw [hc] at hj
        cases hj
        rw [hi] at hj'
        cases hj'
        exact (Chunk.isFull_iff c evs hh).1 hf
      · exact go hp rfl (fun h => by cases h) (by simp [Pc.refusedBy]) (by simp)
  case h_5 e hp =>
    rw [if_pos h.en] at hs
    cases hs
    split
    · exact go hp rfl (fun _ => rfl) (by simp [Pc.refusedBy]) (by simp)
    · exact go hp rfl (fun h => by cases h) (by simp [Pc.refusedBy]) (by simp)
  case h_6 e hp =>
    rw [h.buf] at hs
    cases hs
    exact go hp rfl (fun _ => rfl) (by simp [Pc.refusedBy]) (by simp)
  case h_7 e p hp =>
    split at hs
    · cases hs
    · rename_i p' i hc
      split at hs
      · rename_i hm
        cases hs
        have hc' : (s.tenant t).chunk = some (p, i) := by rw [hm.2]; exact hc
        have hpb : p = b := by
          have := hr.ctl.chunkBuf t p i hc'
          rw [h.buf] at this
          exact (Option.some.inj this).symm
        subst hpb
        have hsh := SameShape.returnChunk (s.heap p) i
        have hcnt : ((s.heap p).returnChunk i).counter = (s.heap p).counter := by
          unfold Buffer.returnChunk Buffer.returnChunkFixed Buffer.returnChunkRing
          split <;> rfl
        refine ⟨h.en, h.buf, ?_, ?_, ?_, ?_, ?_, h.all, ?_, ?_⟩
        · simp only [St.goto, St.setChunk, St.setBuf, setf_self]; rw [hsh.2.1, hcnt]; exact h.count
        · intro u j evs hj
          rcases h.full u j evs hj with hk | hk
          · by_cases hu : u = t
            · subst hu
              rw [hc'] at hk
              cases hk
              exact Or.inr (h.ret u i evs (by rw [hp]; rfl) hc' hj)
            · left; simp only [St.goto, St.setChunk, St.setBuf, setf, if_neg hu]; exact hk
          · exact Or.inr hk
        · intro u j evs hret hk hj
          by_cases hu : u = t
          · subst hu; rw [goto_pc] at hret; cases hret
          · rw [goto_other _ _ _ _ hu] at hret
            simp only [St.goto, St.setChunk, St.setBuf, setf, if_neg hu] at hk
            exact h.ret u j evs hret hk hj
        · intro u j hk hj
          by_cases hu : u = t
          · subst hu; simp [St.goto, St.setChunk, St.setBuf] at hk
          · rw [goto_other _ _ _ _ hu]
            simp only [St.goto, St.setChunk, St.setBuf, setf, if_neg hu] at hk
            exact h.fresh u j hk hj
        · intro u j hk
          by_cases hu : u = t
          · subst hu; simp [St.goto, St.setChunk, St.setBuf] at hk
          · simp only [St.goto, St.setChunk, St.setBuf, setf, if_neg hu] at hk
            exact h.last u j hk
        · intro u
          by_cases hu : u = t
          · subst hu; rw [goto_pc]; simp [Pc.refusedBy]
          · rw [goto_other _ _ _ _ hu]; exact h.nobody u
        · intro u
          by_cases hu : u = t
          · subst hu; rw [goto_pc]; simp
          · rw [goto_other _ _ _ _ hu]; exact h.stays u
      · cases hs
  case h_8 e hp =>
    cases hs
    rw [if_pos h.en]
    exact go hp rfl (fun h => by cases h) (by simp [Pc.refusedBy]) (by simp)
  case h_9 e hp =>
    cases hs
    split <;> exact go hp rfl (fun h => by cases h) (by simp [Pc.refusedBy]) (by simp)
  case h_10 e hp =>
    split at hs
    · cases hs
    · cases hs; exact go hp rfl (fun h => by cases h) (by simp [Pc.refusedBy]) (by simp)
  case h_11 e p hp =>
    have hb := hr.ctl.ptr t p (by rw [hp]; rfl)
    have hpb : p = b := by rw [h.buf] at hb; exact (Option.some.inj hb).symm
    subst hpb
    have hbuf := hr.data.bufs p
    have hno : (s.tenant t).chunk = none := hr.ctl.noChunk t (by rw [hp]; rfl)
    have hlt := hroom e hp
    have hlen := hbuf.length_eq
    have loan : ∀ {y : Buffer ε} {i : Nat}, i = (s.contents p).length → y.chunks.length = (s.heap p).chunks.length →
        y.counter = (s.heap p).counter + 1 →
        Fill p ((((s.setBuf p y).loaned t p i).setChunk t (some (p, i))).goto t (.store e)) := by
      intro y i k1 hlen' hcnt
      have hcont : ((((s.setBuf p y).loaned t p i).setChunk t (some (p, i))).goto t (.store e)).contents p =
          s.contents p ++ [(t, [])] := by
        simp [St.goto, St.setChunk, St.loaned, St.setBuf, k1]
      have hten : ∀ v, (((((s.setBuf p y).loaned t p i).setChunk t (some (p, i))).goto t (.store e)).tenant v).chunk =
          if v = t then some (p, i) else (s.tenant v).chunk := by
        intro v
        by_cases hv : v = t <;> simp [St.goto, St.setChunk, St.loaned, St.setBuf, setf, hv]
      have old : ∀ {u j : Nat} {evs : List ε}, (s.contents p ++ [(t, [])])[j]? = some (u, evs) →
          (s.contents p)[j]? = some (u, evs) ∨ u = t ∧ j = i ∧ evs = [] := by
        intro u j evs hj
        rcases Nat.lt_or_ge j (s.contents p).length with hj' | hj'
        · rw [List.getElem?_append_left hj'] at hj; exact Or.inl hj
        · rw [List.getElem?_append_right hj'] at hj
          right
          have : j - (s.contents p).length = 0 := by
            rcases Nat.eq_zero_or_pos (j - (s.contents p).length) with h0 | h0
            · exact h0
            · rw [List.getElem?_eq_none (by simp only [List.length_singleton]; exact h0)] at hj; cases hj
          rw [this] at hj
          simp at hj
          exact ⟨hj.1.symm, by omega, hj.2⟩
      refine ⟨h.en, h.buf, ?_, ?_, ?_, ?_, ?_, ?_, ?_, ?_⟩
      · simp only [St.goto, St.setChunk, St.loaned, St.setBuf, setf_self]; rw [hlen', hcnt]; exact hlt
      · intro u j evs hj
        rw [hcont] at hj
        rw [hten]
        rcases old hj with hj | ⟨rfl, rfl, rfl⟩
        · rcases h.full u j evs hj with hk | hk
          · by_cases hu : u = t
            · subst hu; rw [hno] at hk; cases hk
            · rw [if_neg hu]; exact Or.inl hk
          · exact Or.inr hk
        · rw [if_pos rfl]; exact Or.inl rfl
      · intro u j evs hret hk hj
        rw [hcont] at hj
        rw [hten] at hk
        by_cases hu : u = t
        · subst hu; rw [goto_pc] at hret; cases hret
        · rw [if_neg hu] at hk
          rw [goto_other _ _ _ _ hu] at hret
          rcases old hj with hj | ⟨rfl, _, _⟩
          · exact h.ret u j evs hret hk hj
          · exact absurd rfl hu
      · intro u j hk hj
        rw [hcont] at hj
        rw [hten] at hk
        by_cases hu : u = t
        · subst hu; rw [goto_pc]; rfl
        · rw [if_neg hu] at hk
          rw [goto_other _ _ _ _ hu]
          rcases old hj with hj | ⟨rfl, _, _⟩
          · exact h.fresh u j hk hj
          · exact absurd rfl hu
      · intro u j hk j' v evs hj' hlt'
        rw [hcont] at hj'
        rw [hten] at hk
        by_cases hu : u = t
        · subst hu
          rw [if_pos rfl] at hk
          cases hk
          exfalso
          have : j' < (s.contents p ++ [(u, ([] : List ε))]).length := (List.getElem?_eq_some_iff.1 hj').1
          simp at this
          omega
        · rw [if_neg hu] at hk
          rcases old hj' with hj | ⟨rfl, _, _⟩
          · exact h.last u j hk j' v evs hj hlt'
          · exact fun e => hu e.symm
      · intro u
        rw [hcont, eventsOf_loan]
        exact h.all u
      · intro u
        by_cases hu : u = t
        · subst hu; rw [goto_pc]; simp [Pc.refusedBy]
        · rw [goto_other _ _ _ _ hu]; exact h.nobody u
      · intro u
        by_cases hu : u = t
        · subst hu; rw [goto_pc]; simp
        · rw [goto_other _ _ _ _ hu]; exact h.stays u
    split at hs
    · split at hs
      · split at hs
        · rename_i y i hg
          cases hs
          obtain ⟨k1, _⟩ := hbuf.claim hg
          have hsh := SameShape.ringClaim (s.heap p) (tid t)
          rw [hg] at hsh
          refine loan k1 hsh.2.1 ?_
          simp only [Buffer.ringClaim] at hg
          split at hg <;> cases hg
          rfl
        · rename_i y hg
          have := (hbuf.claimNone hg).1
          omega
      · split at hs
        · rename_i y i hg
          cases hs
          obtain ⟨k1, _⟩ := hbuf.getFixed hg
          have hsh := SameShape.getChunkFixed (s.heap p) (tid t)
          rw [hg] at hsh
          refine loan k1 hsh.2.1 ?_
          simp only [Buffer.getChunkFixed] at hg
          split at hg <;> cases hg
          rfl
        · rename_i y r hn hg
          have := (hbuf.getFixedNull hg (fun i e => hn i (by rw [e]))).2.1
          omega
    · cases hs
  case h_12 e p hp =>
    have hb := hr.ctl.ptr t p (by rw [hp]; rfl)
    exact absurd (by rw [hp, ← h.buf, hb]; rfl) (h.nobody t)
  case h_13 f hp =>
    cases hs
    exact go hp rfl (fun h => by cases h) (by have := h.nobody t; rw [hp] at this; exact this) (by simp)
  case h_14 f g hp =>
    cases hs
    exact lock _ (by rw [hp]; rfl) rfl (by have := h.nobody t; rw [hp] at this; exact this) (by simp)
  case h_15 f g hp =>
    split at hs
    · cases hs
      exact h.goto (x := { s with owner := some t }) rfl rfl rfl rfl rfl rfl (fun _ => rfl) (by rw [hp]; rfl)
        (fun hq => by cases hq) (by have := h.nobody t; rw [hp] at this; exact this) (by simp)
    · cases hs; exact go hp rfl (fun h => by cases h) (by simp [Pc.refusedBy]) (by simp)
  case h_16 f g hp => rw [hp] at hl; cases hl
  case h_17 e hp =>
    split at hs
    · cases hs
    · rename_i p i hc
      have hb := hr.ctl.chunkBuf t p i hc
      have hpb : p = b := by rw [h.buf] at hb; exact (Option.some.inj hb).symm
      subst hpb
      split at hs
      · split at hs
        · rename_i y hy
          cases hs
          have hsh := SameShape.pushAt (s.heap p) i e
          rw [hy] at hsh
          obtain ⟨evs, hi⟩ := hr.data.owns t p i hc
          have hcnt : y.counter = (s.heap p).counter := by
            have : ((s.heap p).pushAt i e).1.counter = (s.heap p).counter := by
              unfold Buffer.pushAt; split <;> (try split) <;> rfl
            rw [hy] at this; exact this
          have old : ∀ {u j : Nat} {evs' : List ε}, ((s.contents p).modify i (fun q => (q.1, q.2 ++ [e])))[j]? = some (u, evs') →
              (j ≠ i ∧ (s.contents p)[j]? = some (u, evs')) ∨ (j = i ∧ u = t ∧ evs' = evs ++ [e]) := by
            intro u j evs' hj
            rw [List.getElem?_modify] at hj
            by_cases hji : j = i
            · subst hji
              rw [hi] at hj
              simp at hj
              exact Or.inr ⟨rfl, hj.1.symm, hj.2.symm⟩
            · refine Or.inl ⟨hji, ?_⟩
              simpa [Ne.symm hji] using hj
          have hcont : (((s.setBuf p y).recorded t p i e).goto t .unlock).contents p =
              (s.contents p).modify i (fun q => (q.1, q.2 ++ [e])) := by
            simp [St.goto, St.recorded, St.setBuf]
          refine ⟨h.en, h.buf, ?_, ?_, ?_, ?_, ?_, ?_, ?_, ?_⟩
          · simp only [St.goto, St.recorded, St.setBuf, setf_self]; rw [hsh.2.1, hcnt]; exact h.count
          · intro u j evs' hj
            rw [hcont] at hj
            rcases old hj with ⟨_, hj⟩ | ⟨rfl, rfl, rfl⟩
            · exact h.full u j evs' hj
            · exact Or.inl hc
          · intro u j evs' hret hk hj
            rw [hcont] at hj
            by_cases hu : u = t
            · subst hu; rw [goto_pc] at hret; cases hret
            · rw [goto_other _ _ _ _ hu] at hret
              rcases old hj with ⟨_, hj⟩ | ⟨rfl, rfl, rfl⟩
              · exact h.ret u j evs' hret hk hj
              · exact absurd rfl hu
          · intro u j hk hj
            rw [hcont] at hj
            rcases old hj with ⟨hji, hj⟩ | ⟨_, _, e'⟩
            · by_cases hu : u = t
              · subst hu
                have hk' : (s.tenant u).chunk = some (p, j) := hk
                rw [hc] at hk'
                cases hk'
                exact absurd rfl hji
              · rw [goto_other _ _ _ _ hu]
                exact h.fresh u j hk hj
            · simp at e'
          · intro u j hk j' v evs' hj' hlt'
            rw [hcont] at hj'
            rcases old hj' with ⟨_, hj⟩ | ⟨rfl, rfl, _⟩
            · exact h.last u j hk j' v evs' hj hlt'
            · exact h.last u j hk _ _ evs hi hlt'
          · intro u
            rw [hcont, eventsOf_push e hi (h.last t i hc) u, h.all u]
            by_cases hu : u = t
            · subst hu; simp [St.goto, St.recorded, St.setBuf]
            · simp [St.goto, St.recorded, St.setBuf, setf, hu]
          · intro u
            by_cases hu : u = t
            · subst hu; rw [goto_pc]; simp [Pc.refusedBy]
            · rw [goto_other _ _ _ _ hu]; exact h.nobody u
          · intro u
            by_cases hu : u = t
            · subst hu; rw [goto_pc]; simp
            · rw [goto_other _ _ _ _ hu]; exact h.stays u
        · cases hs
      · cases hs
  case h_18 hp =>
    cases hs
    exact lock _ (by rw [hp]; rfl) rfl (by simp [Pc.refusedBy]) (by simp)
  case h_19 => cases hs

/-- The choices of a thread that neither ends the run nor deregisters. -/
def Choice.carriesOn : Choice ε → Bool
  | .start _ | .stop _ | .deregister => false
  | _ => true

/-- A step outside `logEvent` leaves tracing on. -/
theorem Fill.outside {u : Nat} {c : Choice ε} (h : Fill b s) (hr : Reachable true tid s)
    (hs : s.next true tid u c = .to s') (hl : (s.pc u).logging = false) (hc : c.carriesOn = true)
    (hnl : ∀ e, c ≠ .log e) : s'.enabled = true ∧ (s'.pc u).refusedBy ≠ some b := by
  have hoff : ∀ {q : Pc ε}, s.pc u = q → q.isOff = true → False := by
    intro q hq ho
    have := hr.ctl.off u (by rw [hq]; exact ho)
    rw [h.en] at this; cases this
  have pop : ∀ {x : St ε} (st : List Frame), x.enabled = true →
      (x.pop u st).enabled = true ∧ ((x.pop u st).pc u).refusedBy ≠ some b := by
    intro x st hx
    unfold St.pop
    split <;> exact ⟨hx, by rw [goto_pc]; simp [Pc.refusedBy]⟩
  have unw : ∀ {x : St ε} (st : List Frame), x.enabled = true →
      (x.unwind u st).enabled = true ∧ ((x.unwind u st).pc u).refusedBy ≠ some b := by
    intro x st hx
    rw [unwind_eq]
    split <;> exact ⟨hx, by rw [goto_pc]; simp [Pc.refusedBy]⟩
  have key : ∀ sp, (match s.logStep tid u sp with
      | .blocked => s.heldStep tid u sp
      | o => o) = .to s' → s'.enabled = true ∧ (s'.pc u).refusedBy ≠ some b := by
    intro sp hs
    split at hs
    · unfold St.heldStep at hs
      split at hs
      case h_1 n hp =>
        cases hs
        refine ⟨?_, by rw [goto_pc]; simp [Pc.refusedBy]⟩
        show (s.registerBody tid u n).enabled = true
        unfold St.registerBody
        split
        · exact h.en
        · dsimp only; split <;> exact h.en
      case h_2 hp => exact absurd hp (h.stays u)
      case h_3 hp => cases hs; exact ⟨h.en, by rw [goto_pc]; simp [Pc.refusedBy]⟩
      case h_4 hp => exact (hoff hp rfl).elim
      case h_5 hp => exact (hoff hp rfl).elim
      case h_6 hp => exact (hoff hp rfl).elim
      case h_7 hp => exact (hoff hp rfl).elim
      case h_8 hp => exact (hoff hp rfl).elim
      case h_9 st hp => cases hs; exact pop st rfl
      case h_10 => cases hs
    · unfold St.logStep at hs
      split at hs
      case h_16 f g hp =>
        split at hs
        · cases hs; exact ⟨h.en, by rw [goto_pc]; simp [Pc.refusedBy]⟩
        · rename_i hg
          exfalso
          have hg' : s.generation = g := by simpa using hg
          cases f with
          | none =>
            have := hr.ctl.gNone u g (by rw [hp]; rfl) hg'.symm
            rw [h.en] at this; cases this
          | some p =>
            have h1 := hr.ctl.gFull u p g (by rw [hp]; rfl)
            have h2 := hr.ctl.gen
            have h3 := hr.ctl.last b h.buf
            have h4 := h.nobody u
            rw [hp] at h4
            exact h4 (by show some p = some b; congr 1; omega)
      case h_19 => cases hs
      all_goals (rename_i hp; rw [hp] at hl; cases hl)
  cases c with
  | step => exact key false hs
  | spurious => exact key true hs
  | log e => exact absurd rfl (hnl e)
  | lock =>
    simp only [St.next] at hs
    split at hs <;> cases hs
    exact ⟨h.en, by rw [goto_pc]; simp [Pc.refusedBy]⟩
  | register n =>
    simp only [St.next] at hs
    split at hs <;> cases hs
    exact ⟨h.en, by rw [goto_pc]; simp [Pc.refusedBy]⟩
  | deregister => cases hc
  | free a =>
    simp only [St.next] at hs
    split at hs <;> cases hs
    exact ⟨h.en, h.nobody u⟩
  | start cfg => cases hc
  | stop sh => cases hc
  | getBuffer =>
    simp only [St.next] at hs
    split at hs
    · rename_i st hp
      rw [if_pos h.en] at hs
      cases hs
      exact ⟨h.en, by show (s.pc u).refusedBy ≠ some b; rw [hp]; simp [Pc.refusedBy]⟩
    · cases hs
  | getTraceContext =>
    simp only [St.next] at hs
    split at hs
    · rename_i st hp
      rw [if_pos h.en] at hs
      cases hs
      exact ⟨h.en, by show (s.pc u).refusedBy ≠ some b; rw [hp]; simp [Pc.refusedBy]⟩
    · cases hs
  | ret =>
    simp only [St.next] at hs
    split at hs
    · cases hs; exact pop _ h.en
    · cases hs
  | throw =>
    simp only [St.next] at hs
    split at hs
    · cases hs; exact unw _ h.en
    · cases hs

/-- Any step that carries on, unless a thread asks for a chunk when there is none left. -/
theorem Fill.next {u : Nat} {c : Choice ε} (h : Fill b s) (hr : Reachable true tid s)
    (hs : s.next true tid u c = .to s') (hc : c.carriesOn = true) (hbuf : s'.buffer = s.buffer)
    (hroom : ∀ e, s.pc u = .getDo e b → (s.heap b).counter < (s.heap b).chunks.length) : Fill b s' := by
  by_cases hlog : (s.pc u).logging = true
  · rcases next_in_log hs hlog with ⟨sp, hs'⟩ | ⟨a, rfl⟩
    · exact h.logStep hr hlog hs' hroom
    · exact ⟨h.en, h.buf, h.count, h.full, h.ret, h.fresh, h.last, h.all, h.nobody, h.stays⟩
  · have hlog' : (s.pc u).logging = false := by simpa using hlog
    have hstore : (s.pc u).isStore = false := by
      generalize s.pc u = q at hlog'
      cases q <;> first | rfl | cases hlog'
    by_cases hl : ∃ e, c = .log e
    · obtain ⟨e, rfl⟩ := hl
      simp only [St.next] at hs
      split at hs <;> cases hs
      exact h.goto rfl rfl rfl rfl rfl rfl (fun _ => rfl) hstore (fun hq => by cases hq) (by simp [Pc.refusedBy]) (by simp)
    · have hnl : ∀ e, c ≠ .log e := fun e he => hl ⟨e, he⟩
      have hlt := hr.ctl.last b h.buf
      have hq := next_quiet (b := b) hs hlog' hnl (by omega) (fun hp => absurd hp (h.stays u))
      obtain ⟨k1, k2⟩ := h.outside hr hs hlog' hc hnl
      have hch : ∀ v, (s'.tenant v).chunk = (s.tenant v).chunk := by
        intro v
        rcases hq.chunk v with e | ⟨_, e | ⟨_, e⟩⟩
        · exact e
        · have := hr.ctl.off u e
          rw [h.en] at this; cases this
        · exact absurd e (h.stays u)
      have hpc : ∀ v, v ≠ u → s'.pc v = s.pc v := fun v hv => next_pc hs hv
      refine ⟨k1, hbuf.trans h.buf, by rw [hq.same.heap]; exact h.count, ?_, ?_, ?_, ?_, ?_, ?_, ?_⟩
      · intro v i evs hi
        rw [hq.same.contents] at hi
        rw [hch]; exact h.full v i evs hi
      · intro v i evs hret hk hi
        rw [hq.same.contents] at hi
        rw [hch] at hk
        by_cases hv : v = u
        · subst hv
          have := hq.pc
          generalize s'.pc v = q at hret this
          cases q <;> first | (cases hret; done) | cases this
        · rw [hpc v hv] at hret; exact h.ret v i evs hret hk hi
      · intro v i hk hi
        rw [hq.same.contents] at hi
        rw [hch] at hk
        have := h.fresh v i hk hi
        by_cases hv : v = u
        · subst hv; rw [hstore] at this; cases this
        · rw [hpc v hv]; exact this
      · intro v i hk
        rw [hq.same.contents]
        rw [hch] at hk
        exact h.last v i hk
      · intro v
        rw [hq.same.contents, hq.same.stored]
        exact h.all v
      · intro v
        by_cases hv : v = u
        · subst hv; exact k2
        · rw [hpc v hv]; exact h.nobody v
      · intro v hv'
        by_cases hv : v = u
        · subst hv
          rcases hq.dereg hv' with e | e
          · subst e; cases hc
          · exact h.stays v e
        · rw [hpc v hv] at hv'; exact h.stays v hv'

/-- The chunks of the buffer that belong to `u`. -/
def chunksOf (u : Nat) (cont : List (Nat × List ε)) : Nat := (cont.filter (fun p => p.1 = u)).length

/-- In a list of chunks of which all those of `u` but perhaps one are full. -/
theorem chunksOf_full {u : Nat} (cont : List (Nat × List ε))
    (h : ∀ p ∈ cont, p.1 = u → p.2.length = chunkSize) : (eventsOf u cont).length = chunkSize * chunksOf u cont := by
  induction cont with
  | nil => rfl
  | cons p l ih =>
    have := ih (fun q hq => h q (List.mem_cons_of_mem _ hq))
    have hp := h p (by simp)
    by_cases hu : p.1 = u
    · simp [eventsOf, chunksOf, hu] at this ⊢
      rw [hp hu, this]; ring
    · simp [eventsOf, chunksOf, hu] at this ⊢
      exact this

/-- The chunks of `u` are as many as its events need, if all but the one it holds are full, and
that one is used. -/
theorem chunksOf_le {u : Nat} (cont : List (Nat × List ε)) (i : Option Nat) (m : Nat)
    (h : ∀ j evs, cont[j]? = some (u, evs) → i = some j ∨ evs.length = chunkSize)
    (hi : ∀ j, i = some j → cont[j]? = some (u, []) → 0 < m) :
    chunkSize * chunksOf u cont < (eventsOf u cont).length + m + chunkSize := by
  induction cont generalizing i with
  | nil =>
    have : 0 < chunkSize := by decide
    simp only [chunksOf, eventsOf, List.filter_nil, List.length_nil, List.flatMap_nil]; omega
  | cons p l ih =>
    obtain ⟨v, evs⟩ := p
    by_cases hv : v = u
    · subst hv
      by_cases h0 : i = some 0
      · have hl : ∀ q ∈ l, q.1 = v → q.2.length = chunkSize := by
          intro q hq hqv
          obtain ⟨j, hj⟩ := List.mem_iff_getElem?.1 hq
          have : ((v, evs) :: l)[j + 1]? = some (v, q.2) := by
            rw [List.getElem?_cons_succ, hj, ← hqv]
          rcases h (j + 1) q.2 this with e | e
          · rw [h0] at e; cases e
          · exact e
        have h1 := chunksOf_full l hl
        have h2 : 0 < evs.length + m := by
          cases evs with
          | nil => have := hi 0 h0 rfl; omega
          | cons a l => simp
        simp [eventsOf, chunksOf] at h1 ⊢
        rw [h1]
        have : chunkSize * ((l.filter (fun p => decide (p.1 = v))).length + 1) =
          chunkSize * (l.filter (fun p => decide (p.1 = v))).length + chunkSize := by ring
        omega
      · have h1 := h 0 evs rfl
        have he : evs.length = chunkSize := h1.resolve_left h0
        have := ih (i.bind fun j => if j = 0 then none else some (j - 1)) ?_ ?_
        · simp [eventsOf, chunksOf] at this ⊢
          have h3 : chunkSize * ((l.filter (fun p => decide (p.1 = v))).length + 1) =
            chunkSize * (l.filter (fun p => decide (p.1 = v))).length + chunkSize := by ring
          omega
        · intro j evs' hj
          rcases h (j + 1) evs' (by rw [List.getElem?_cons_succ]; exact hj) with e | e
          · left; rw [e]; simp
          · exact Or.inr e
        · intro j hj hj'
          cases i with
          | none => cases hj
          | some k =>
            simp at hj
            refine hi (j + 1) ?_ (by rw [List.getElem?_cons_succ]; exact hj')
            rw [← hj.2]; congr 1; omega
    · have := ih (i.bind fun j => if j = 0 then none else some (j - 1)) ?_ ?_
      · simp [eventsOf, chunksOf, hv] at this ⊢
        exact this
      · intro j evs' hj
        rcases h (j + 1) evs' (by rw [List.getElem?_cons_succ]; exact hj) with e | e
        · left; rw [e]; simp
        · exact Or.inr e
      · intro j hj hj'
        cases i with
        | none => cases hj
        | some k =>
          simp at hj
          refine hi (j + 1) ?_ (by rw [List.getElem?_cons_succ]; exact hj')
          rw [← hj.2]; congr 1; omega

/-- The chunks are those of the threads. -/
theorem length_chunksOf {T : List Nat} (hT : T.Nodup) (cont : List (Nat × List ε)) (h : ∀ p ∈ cont, p.1 ∈ T) :
    cont.length = (T.map (chunksOf · cont)).sum := by
  induction cont with
  | nil =>
    have : ∀ T : List Nat, (T.map (chunksOf · ([] : List (Nat × List ε)))).sum = 0 := by
      intro T; induction T with
      | nil => rfl
      | cons u T ih => rw [List.map_cons, List.sum_cons, ih]; rfl
    rw [this]; rfl
  | cons p l ih =>
    have ih := ih (fun q hq => h q (List.mem_cons_of_mem _ hq))
    have hp := h p (by simp)
    have key : ∀ T : List Nat, T.Nodup → (T.map (chunksOf · (p :: l))).sum =
        (T.map (chunksOf · l)).sum + if p.1 ∈ T then 1 else 0 := by
      intro T
      induction T with
      | nil => simp
      | cons u T ihT =>
        intro hn
        have hn' := List.nodup_cons.1 hn
        have := ihT hn'.2
        simp only [List.map_cons, List.sum_cons, this]
        by_cases hu : p.1 = u
        · subst hu
          simp [chunksOf, hn'.1]; omega
        · simp [chunksOf, hu]; omega
    rw [key T hT, if_pos hp, List.length_cons, ih]

end Phosphor.TLog
