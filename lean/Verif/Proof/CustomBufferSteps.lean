import Verif.Proof.CustomBufferInv
/-
Every step keeps the invariant of the log with buffers made by the user, and is defined.
-/
namespace Phosphor.TLog
variable {ε : Type} {s : St ε} {t : Nat} {e : ε}
set_option maxHeartbeats 1000000

theorem Ctl.waitNull (h : Ctl s) {p : Nat} (hp : s.pc t = .getWait e p) :
    Ctl (s.goto t (.failed (some p))) := by
  ctl s h hp (.failed (some p) : Pc ε)

theorem Ctl.waitGiven (h : Ctl s) {p c : Nat} (hp : s.pc t = .getWait e p) :
    Ctl ((s.setChunk t (some (p, c))).goto t (.store e)) := by
  ctl s h hp (.store e : Pc ε)

theorem Ctl.retGiven (h : Ctl s) {p : Nat} (hp : s.pc t = .retDo e p) :
    Ctl ((s.setChunk t none).goto t (.getCheck e)) := by
  ctl s h hp (.getCheck e : Pc ε)

theorem Ctl.getBegins (h : Ctl s) {p : Nat} (hp : s.pc t = .getDo e p) :
    Ctl (s.goto t (.getWait e p)) := by
  ctl s h hp (.getWait e p : Pc ε)

theorem Ctl.added (h : Ctl s) (hp : s.pc t = .store e) : Ctl (s.goto t .unlock) := by
  ctl s h hp (.unlock : Pc ε)

theorem Ctl.deregGiven (h : Ctl s) (hp : s.pc t = .deregBody) : Ctl (s.setChunk t none) := by
  have : Ctl ((s.setChunk t none).goto t .deregBody) := by
    ctl s h hp (.deregBody : Pc ε)
  refine this.congr rfl rfl rfl rfl rfl rfl rfl rfl ?_
  funext u
  simp only [St.goto, St.setChunk, setf]
  split
  · rename_i hu; rw [hu, hp]
  · rfl

end Phosphor.TLog

namespace Phosphor.Custom
open TLog
variable {ε : Type} {tid : Nat → Nat} {s s' : CSt ε} {t : Nat}

theorem set2_apply {α : Type} (f : Nat → Nat → α) (b c : Nat) (a : α) (b' c' : Nat) :
    set2 f b c a b' c' = if b = b' ∧ c = c' then a else f b' c' := by
  unfold set2 setf
  by_cases h1 : b' = b
  · subst h1
    by_cases h2 : c' = c
    · subst h2; simp
    · simp [h2, Ne.symm h2]
  · simp [h1, Ne.symm h1]

theorem Inv.result (h : Inv s) {r : Option Nat} (hs : s.result t r = .to s') : Inv s' := by
  unfold CSt.result at hs
  split at hs
  case h_2 => cases hs
  case h_1 e p hp =>
    have hin := h.waits t e p hp
    obtain ⟨_, hb⟩ := h.inside t p hin
    have hg := not_gone h hb
    have hbz := h.busy t
    have hcm : (s.log.pc t).committed = true := by simp [hp, Pc.committed]
    have hnc := h.ctl.noChunk t (by simp [hp, Pc.noChunk])
    have hnh : ∀ c, holder s.calls p c ≠ some t := by
      intro c hc
      rcases h.kept t p c hc hb with h1 | ⟨_, h1, _⟩
      · rw [hnc] at h1; cases h1
      · rw [hcm] at h1; cases h1
    split at hs
    · cases hs
      refine h.call (t := t) (v := none) (x := .getEnd t p none) (h.ctl.waitNull hp)
        rfl rfl rfl rfl ?_ ?_ rfl rfl ?_ ?_ ?_ ?_ ?_ ?_ ?_ ?_ ?_ ?_ ?_ ?_ ?_ ?_ ?_ ?_ ?_ ?_
      · intro u hu; exact setf_ne _ _ hu
      · intro u hu; rfl
      · exact ⟨by rw [hbz, hin], hg, by simp⟩
      · simp [Custom.busy]
      · intro u hu; simp [Custom.busy, Ne.symm hu]
      · simp
      · simp
      · simp [holder]
      · simp [adds]
      · intro b c hx; exact .inl (by simpa [holder] using hx)
      · simpa [holder] using h.lent
      · simpa [adds] using h.count
      · simp
      · simp [St.goto, setf_self]
      · simp
      · simp
      · intro b c hx; simp [St.goto, hnc] at hx
      · intro b c hx hb'
        rw [hb] at hb'; cases hb'
        exact absurd (by simpa [holder] using hx) (hnh c)
      · simp [St.goto, setf_self, Pc.isEnable]
      · simp [St.goto, setf_self]
    · rename_i c
      split at hs
      · cases hs
      · rename_i hl
        cases hs
        have hno : holder s.calls p c = none := by
          have := h.lent p c
          cases hx : holder s.calls p c
          · rfl
          · rw [hx] at this; simp [this] at hl
        refine h.call (t := t) (v := none) (x := .getEnd t p (some c)) (h.ctl.waitGiven hp)
          rfl rfl rfl rfl ?_ ?_ rfl rfl ?_ ?_ ?_ ?_ ?_ ?_ ?_ ?_ ?_ ?_ ?_ ?_ ?_ ?_ ?_ ?_ ?_ ?_
        · intro u hu; exact setf_ne _ _ hu
        · intro u hu; simp [St.goto, St.setChunk, setf_ne _ _ hu]
        · exact ⟨by rw [hbz, hin], hg, by intro c' hx; cases hx; exact hno⟩
        · simp [Custom.busy]
        · intro u hu; simp [Custom.busy, Ne.symm hu]
        · simp
        · simp
        · intro b c' u hu
          simp only [holder]
          split
          · rename_i hx; obtain ⟨rfl, rfl⟩ := hx; rw [hno]; simp [Ne.symm hu]
          · rfl
        · intro b c' u hu hx
          simp only [adds]
          split
          · rename_i hy; obtain ⟨rfl, rfl⟩ := hy; rw [hno] at hx; cases hx
          · rfl
        · intro b c' hx
          simp only [holder] at hx
          split at hx
          · rename_i hy; obtain ⟨rfl, rfl⟩ := hy; exact .inr ⟨hb, hcm⟩
          · exact .inl hx
        · intro b c'
          simp only [holder, set2_apply]
          split
          · rfl
          · exact h.lent b c'
        · intro b c'
          simp only [adds, set2_apply]
          split
          · rfl
          · exact h.count b c'
        · simp
        · simp [St.goto, setf_self]
        · simp
        · simp
        · intro b c' hx _
          simp [St.goto, St.setChunk, setf_self] at hx
          simp [holder, hx.1, hx.2]
        · intro b c' hx hb'
          rw [hb] at hb'; cases hb'
          simp only [holder] at hx
          split at hx
          · rename_i hy; left; simp [St.goto, St.setChunk, setf_self, hy.2]
          · exact absurd hx (hnh c')
        · simp [St.goto, setf_self, Pc.isEnable]
        · intro e' b c' _ hx
          simp [St.goto, St.setChunk, setf_self] at hx
          simp [adds, hx.1, hx.2]
          decide

theorem Inv.stats (h : Inv s) (hs : s.stats t = .to s') : Inv s' := by
  unfold CSt.stats at hs
  split at hs
  case h_2 => cases hs
  case h_1 st hp =>
    split at hs
    case h_2 => cases hs
    case h_1 p hb =>
      split at hs
      case isFalse => cases hs
      case isTrue hin =>
        split at hs
        case isFalse => cases hs
        case isTrue hm =>
          cases hs
          have hg := not_gone h hb
          refine h.call (t := t) (v := some p) (x := .statsBegin t p) h.ctl
            rfl rfl rfl rfl ?_ ?_ rfl rfl ?_ ?_ ?_ ?_ ?_ ?_ ?_ ?_ ?_ ?_ ?_ ?_ ?_ ?_ ?_ ?_ ?_ ?_
          · intro u hu; rfl
          · intro u hu; rfl
          · exact ⟨hg, by rw [h.busy, hin]⟩
          · simp [Custom.busy]
          · intro u hu; simp [Custom.busy, Ne.symm hu]
          · simp
          · simp
          · simp [holder]
          · simp [adds]
          · intro b c hx; exact .inl (by simpa [holder] using hx)
          · simpa [holder] using h.lent
          · simpa [adds] using h.count
          · intro q hq; cases hq; exact ⟨by simp [hp, insidePc], hb⟩
          · simp [hp]
          · simp [hp, returning]
          · simp [hp, returning]
          · intro b c hx _
            simpa [holder] using h.hold t b c hx (.inl hin)
          · intro b c hx hb'
            exact h.kept t b c (by simpa [holder] using hx) hb'
          · simp [hp, Pc.isEnable]
          · simp [hp]

theorem Inv.leave (h : Inv s) {p : Nat} (hin : s.inCall t = some p)
    (hs : s.leave t p = .to s') : Inv s' := by
  obtain ⟨hi, hb⟩ := h.inside t p hin
  have hg := not_gone h hb
  have hbz := h.busy t
  unfold CSt.leave at hs
  split at hs
  case h_4 => cases hs
  case h_1 e q hp =>
    split at hs
    case h_2 => cases hs
    case h_1 b c hc =>
      cases hs
      refine h.call (t := t) (v := none) (x := .retEnd t p c) (h.ctl.retGiven hp)
        rfl rfl rfl rfl ?_ ?_ rfl rfl ?_ ?_ ?_ ?_ ?_ ?_ ?_ ?_ ?_ ?_ ?_ ?_ ?_ ?_ ?_ ?_ ?_ ?_
      · intro u hu; exact setf_ne _ _ hu
      · intro u hu; simp [St.goto, St.setChunk, setf_ne _ _ hu]
      · exact ⟨by rw [hbz, hin], hg⟩
      · simp [Custom.busy]
      · intro u hu; simp [Custom.busy, Ne.symm hu]
      · simp
      · simp
      · simp [holder]
      · simp [adds]
      · intro b c hx; exact .inl (by simpa [holder] using hx)
      · simpa [holder] using h.lent
      · simpa [adds] using h.count
      · simp
      · simp [St.goto, setf_self]
      · simp
      · simp
      · intro b c hx; simp [St.goto, St.setChunk, setf_self] at hx
      · intro b c' hx hb'
        rw [hb] at hb'; cases hb'
        exact absurd (by simpa [holder] using hx) (h.gave t p c' hin (by simp [hp, returning]))
      · simp [St.goto, setf_self, Pc.isEnable]
      · simp [St.goto, setf_self]
  case h_2 hp =>
    split at hs
    case h_2 => cases hs
    case h_1 b c hc =>
      cases hs
      refine h.call (t := t) (v := none) (x := .retEnd t p c) (h.ctl.deregGiven hp)
        rfl rfl rfl rfl ?_ ?_ rfl rfl ?_ ?_ ?_ ?_ ?_ ?_ ?_ ?_ ?_ ?_ ?_ ?_ ?_ ?_ ?_ ?_ ?_ ?_
      · intro u hu; rfl
      · intro u hu; simp [St.setChunk, setf_ne _ _ hu]
      · exact ⟨by rw [hbz, hin], hg⟩
      · simp [Custom.busy]
      · intro u hu; simp [Custom.busy, Ne.symm hu]
      · simp
      · simp
      · simp [holder]
      · simp [adds]
      · intro b c hx; exact .inl (by simpa [holder] using hx)
      · simpa [holder] using h.lent
      · simpa [adds] using h.count
      · simp
      · simp [St.setChunk, hp]
      · simp
      · simp
      · intro b c hx; simp [St.setChunk, setf_self] at hx
      · intro b c' hx hb'
        rw [hb] at hb'; cases hb'
        exact absurd (by simpa [holder] using hx) (h.gave t p c' hin (by simp [hp, returning]))
      · simp [St.setChunk, hp, Pc.isEnable]
      · simp [St.setChunk, hp]
  case h_3 st hp =>
    cases hs
    refine h.call (t := t) (v := none) (x := .statsEnd t p) h.ctl
      rfl rfl rfl rfl ?_ ?_ rfl rfl ?_ ?_ ?_ ?_ ?_ ?_ ?_ ?_ ?_ ?_ ?_ ?_ ?_ ?_ ?_ ?_ ?_ ?_
    · intro u hu; rfl
    · intro u hu; rfl
    · exact ⟨by rw [hbz, hin], hg⟩
    · simp [Custom.busy]
    · intro u hu; simp [Custom.busy, Ne.symm hu]
    · simp
    · simp
    · simp [holder]
    · simp [adds]
    · intro b c hx; exact .inl (by simpa [holder] using hx)
    · simpa [holder] using h.lent
    · simpa [adds] using h.count
    · simp
    · simp [hp]
    · simp
    · simp
    · intro b c hx _
      simpa [holder] using h.hold t b c hx (.inr (by simp [hp, returning]))
    · intro b c hx hb'
      exact h.kept t b c (by simpa [holder] using hx) hb'
    · simp [hp, Pc.isEnable]
    · simp [hp]

/-- A thread that has a chunk and is not being evicted has no other. -/
theorem Inv.only (h : Inv s) {b c c' : Nat} (hc : (s.log.tenant t).chunk = some (b, c))
    (hh : holder s.calls b c' = some t) : c' = c := by
  rcases h.kept t b c' hh (h.ctl.chunkBuf t b c hc) with h1 | ⟨_, _, h1⟩
  · rw [hc] at h1; cases h1; rfl
  · rw [hc] at h1; cases h1

theorem Inv.giveBack (h : Inv s) {p b c : Nat} (hin : s.inCall t = none)
    (hc : (s.log.tenant t).chunk = some (b, c)) (hr : returning (s.log.pc t) = true)
    (hi : insidePc p (s.log.pc t))
    (hs : s.giveBack t p b c = .to s') : Inv s' := by
  unfold CSt.giveBack at hs
  split at hs
  case isFalse => cases hs
  case isTrue hm =>
    obtain ⟨_, rfl⟩ := hm
    cases hs
    have hb := h.ctl.chunkBuf t p c hc
    have hg := not_gone h hb
    have hh := h.hold t p c hc (.inl hin)
    refine h.call (t := t) (v := some p) (x := .retBegin t p c) h.ctl
      rfl rfl rfl rfl ?_ ?_ rfl rfl ?_ ?_ ?_ ?_ ?_ ?_ ?_ ?_ ?_ ?_ ?_ ?_ ?_ ?_ ?_ ?_ ?_ ?_
    · intro u hu; rfl
    · intro u hu; rfl
    · exact ⟨hg, by rw [h.busy, hin], hh⟩
    · simp [Custom.busy]
    · intro u hu; simp [Custom.busy, Ne.symm hu]
    · simp
    · simp
    · intro b c' u hu
      simp only [holder]
      split
      · rename_i hx; obtain ⟨rfl, rfl⟩ := hx; rw [hh]; simp [Ne.symm hu]
      · rfl
    · simp [adds]
    · intro b c' hx
      simp only [holder] at hx
      split at hx
      · exact absurd rfl hx
      · exact .inl hx
    · intro b c'
      simp only [holder, set2_apply]
      split
      · rfl
      · exact h.lent b c'
    · simpa [adds] using h.count
    · intro q hq; cases hq; exact ⟨hi, hb⟩
    · intro e q hq; simp only at hq; rw [hq] at hr; simp [returning] at hr
    · intro _ _; simp only; rw [hc]; simp
    · intro q c' hq _
      cases hq
      simp only [holder]
      split
      · simp
      · rename_i hx
        intro hy
        exact hx ⟨trivial, (h.only hc hy).symm⟩
    · intro b c' hx hy
      simp only at hy
      rcases hy with hy | hy
      · cases hy
      · rw [hr] at hy; cases hy
    · intro b c' hx hb'
      simp only [holder] at hx
      split at hx
      · cases hx
      · exact h.kept t b c' hx hb'
    · simp only
      cases hx : (s.log.pc t).isEnable
      · rfl
      · exfalso
        revert hr hx
        generalize s.log.pc t = q
        intro hr hx
        cases q <;> simp [returning, Pc.isEnable] at hr hx
    · intro e b c' hx; simp only at hx; rw [hx] at hr; simp [returning] at hr

theorem Inv.getBegin (h : Inv s) {e : ε} {p : Nat} (hp : s.log.pc t = .getDo e p)
    (hin : s.inCall t = none) :
    Inv { s with
      log := s.log.goto t (.getWait e p)
      inCall := setf s.inCall t (some p)
      calls := .getBegin t p :: s.calls } := by
  have hb := h.ctl.ptr t p (by simp [hp, Pc.bufPtr])
  have hg := not_gone h hb
  have hcm : (s.log.pc t).committed = true := by simp [hp, Pc.committed]
  have hnc := h.ctl.noChunk t (by simp [hp, Pc.noChunk])
  have hnh : ∀ c, holder s.calls p c ≠ some t := by
    intro c hc
    rcases h.kept t p c hc hb with h1 | ⟨_, h1, _⟩
    · rw [hnc] at h1; cases h1
    · rw [hcm] at h1; cases h1
  refine h.call (t := t) (v := some p) (x := .getBegin t p) (h.ctl.getBegins hp)
    rfl rfl rfl rfl ?_ ?_ rfl rfl ?_ ?_ ?_ ?_ ?_ ?_ ?_ ?_ ?_ ?_ ?_ ?_ ?_ ?_ ?_ ?_ ?_ ?_
  · intro u hu; exact setf_ne _ _ hu
  · intro u hu; rfl
  · exact ⟨hg, by rw [h.busy, hin], hnh⟩
  · simp [Custom.busy]
  · intro u hu; simp [Custom.busy, Ne.symm hu]
  · simp
  · simp
  · simp [holder]
  · simp [adds]
  · intro b c hx; exact .inl (by simpa [holder] using hx)
  · simpa [holder] using h.lent
  · simpa [adds] using h.count
  · intro q hq; cases hq; exact ⟨by simp [St.goto, setf_self, insidePc], hb⟩
  · intro e' q hq; simp [St.goto, setf_self] at hq; rw [hq.2]
  · simp [St.goto, setf_self, returning]
  · simp [St.goto, setf_self, returning]
  · intro b c hx; simp [St.goto, hnc] at hx
  · intro b c hx hb'
    rw [hb] at hb'; cases hb'
    exact absurd (by simpa [holder] using hx) (hnh c)
  · simp [St.goto, setf_self, Pc.isEnable]
  · simp [St.goto, setf_self]

theorem Inv.add (h : Inv s) {e : ε} {b c : Nat} (hp : s.log.pc t = .store e)
    (hin : s.inCall t = none) (hc : (s.log.tenant t).chunk = some (b, c)) :
    Inv { s with
      log := s.log.goto t .unlock
      count := set2 s.count b c (s.count b c + 1)
      calls := .add t b c :: s.calls } := by
  have hb := h.ctl.chunkBuf t b c hc
  have hg := not_gone h hb
  have hh := h.hold t b c hc (.inl hin)
  have hcm : (s.log.pc t).committed = true := by simp [hp, Pc.committed]
  have hset : setf s.inCall t none = s.inCall := by
    funext u
    simp only [setf]
    split
    · rename_i hu; rw [hu, hin]
    · rfl
  refine h.call (t := t) (v := none) (x := .add t b c) (h.ctl.added hp)
    rfl rfl rfl rfl ?_ ?_ rfl hset.symm ?_ ?_ ?_ ?_ ?_ ?_ ?_ ?_ ?_ ?_ ?_ ?_ ?_ ?_ ?_ ?_ ?_ ?_
  · intro u hu; exact setf_ne _ _ hu
  · intro u hu; rfl
  · exact ⟨hg, by rw [h.busy, hin], hh, h.room t e b c hp hc⟩
  · simp [Custom.busy, h.busy, hin]
  · intro u hu; simp [Custom.busy]
  · simp
  · simp
  · simp [holder]
  · intro b' c' u hu hx
    simp only [adds]
    split
    · rename_i hy; obtain ⟨rfl, rfl⟩ := hy; rw [hh] at hx; cases hx; exact absurd rfl hu
    · rfl
  · intro b c hx; exact .inl (by simpa [holder] using hx)
  · simpa [holder] using h.lent
  · intro b' c'
    simp only [adds, set2_apply, h.count]
    split
    · rename_i hy; obtain ⟨rfl, rfl⟩ := hy; rfl
    · rfl
  · simp
  · simp [St.goto, setf_self]
  · simp
  · simp
  · intro b' c' hx _
    simpa [holder] using h.hold t b' c' hx (.inl hin)
  · intro b' c' hx hb'
    rw [hb] at hb'; cases hb'
    have := h.only hc (by simpa [holder] using hx)
    subst this
    exact .inl hc
  · simp [St.goto, setf_self, Pc.isEnable]
  · simp [St.goto, setf_self]

theorem Inv.create (h : Inv s) {n : Nat} {st : List Frame}
    (hp : s.log.pc t = .held (.startCreate n) st) (hin : s.inCall t = none) :
    Inv { s with
      log := (s.log.createBuffer n).goto t (.held .startEnable st)
      calls := match s.log.buffer with
        | some b => .destroyed b :: s.calls
        | none => s.calls } := by
  have hoff : s.log.enabled = false := h.ctl.off t (by simp [hp, Pc.isOff])
  have hown : s.log.owner = some t := (h.ctl.own t).2 (by simp [hp, Pc.holdsMutex])
  have hpend : s.log.pend = [] := by simp [St.pend, hown, hp, Pc.pending]
  have hncm : ∀ u, (s.log.pc u).committed = false := by
    intro u
    cases hx : (s.log.pc u).committed
    · rfl
    · rcases h.ctl.comm u (.inr hx) with h1 | h1
      · rw [hoff] at h1; cases h1
      · rw [hpend] at h1; cases h1
  have hnch : ∀ u, (s.log.tenant u).chunk = none := by
    intro u
    by_contra hx
    rcases h.ctl.comm u (.inl hx) with h1 | h1
    · rw [hoff] at h1; cases h1
    · rw [hpend] at h1; cases h1
  have hnin : ∀ u, s.inCall u = none := by
    intro u
    cases hx : s.inCall u with
    | none => rfl
    | some p =>
      exfalso
      have hut : u ≠ t := by rintro rfl; rw [hin] at hx; cases hx
      have h1 := (h.inside u p hx).1
      have h2 := hncm u
      have h3 : (s.log.pc u).holdsMutex = false := by
        cases hy : (s.log.pc u).holdsMutex
        · rfl
        · have := (h.ctl.own u).2 hy; rw [hown] at this; cases this; exact absurd rfl hut
      revert h1 h2 h3
      generalize s.log.pc u = q
      intro h1 h2 h3
      cases q <;> simp [insidePc, Pc.committed, Pc.holdsMutex] at h1 h2 h3
  have hnew : ∀ c, holder s.calls s.log.nextBuf c = none := by
    intro c
    by_contra hx
    have := h.born _ _ hx
    omega
  have hhold : ∀ b c, holder (match s.log.buffer with
      | some b => Call.destroyed b :: s.calls | none => s.calls) b c = holder s.calls b c := by
    intro b c; split <;> simp [holder]
  have hadds : ∀ b c, adds (match s.log.buffer with
      | some b => Call.destroyed b :: s.calls | none => s.calls) b c = adds s.calls b c := by
    intro b c; split <;> simp [adds]
  have hbusy : ∀ u, Custom.busy (match s.log.buffer with
      | some b => Call.destroyed b :: s.calls | none => s.calls) u = Custom.busy s.calls u := by
    intro u; split <;> simp [Custom.busy]
  have hfresh : s.log.status s.log.nextBuf = .unborn := (h.ctl.fresh _).2 (Nat.le_refl _)
  have hdead : ∀ b, Custom.dead (match s.log.buffer with
      | some b => Call.destroyed b :: s.calls | none => s.calls) b ↔
        Custom.dead s.calls b ∨ s.log.buffer = some b := by
    intro b
    split
    · rename_i b' hb'; simp [Custom.dead]; grind
    · rename_i hb'; simp [Custom.dead, hb']
  have hgone : ∀ b, Custom.gone (match s.log.buffer with
      | some b => Call.destroyed b :: s.calls | none => s.calls) b ↔
        Custom.gone s.calls b ∨ s.log.buffer = some b := by
    intro b
    split
    · rename_i b' hb'; simp [Custom.gone]; grind
    · rename_i hb'; simp [Custom.gone, hb']
  refine ⟨h.ctl.create hp, ?_, ?_, ?_, ?_, ?_, ?_, ?_, ?_, ?_, ?_, ?_, ?_, ?_, ?_, ?_⟩
  · dsimp only
    split
    · rename_i b hb
      refine ⟨⟨?_, ?_⟩, h.legal⟩
      · rw [h.dead, (h.ctl.status b).2 hb]; simp
      · intro u; rw [h.busy, hnin u]; simp
    · exact h.legal
  · intro u; dsimp only; rw [hbusy, h.busy]
  · intro u p hu; dsimp only at hu; rw [hnin u] at hu; cases hu
  · intro u e p hu
    dsimp only at hu ⊢
    by_cases hut : u = t
    · subst hut; simp [St.goto, setf_self] at hu
    · simp [St.goto, setf_ne _ _ hut, St.createBuffer] at hu; exact h.waits u e p hu
  · intro u p hu; dsimp only at hu; rw [hnin u] at hu; cases hu
  · intro u p c hu; dsimp only at hu; rw [hnin u] at hu; cases hu
  · intro b
    dsimp only
    rw [hgone, h.gone]
    simp only [St.goto, St.createBuffer, setf]
    by_cases h1 : b = s.log.nextBuf
    · subst h1
      have h2 : s.log.buffer ≠ some s.log.nextBuf := by
        intro hx; have := h.ctl.last _ hx; omega
      simp [hfresh, h2]
    · by_cases h2 : s.log.buffer = some b <;> simp [h1, h2]
  · intro b
    dsimp only
    rw [hdead, h.dead]
    simp only [St.goto, St.createBuffer, setf]
    by_cases h1 : b = s.log.nextBuf
    · subst h1
      have h2 : s.log.buffer ≠ some s.log.nextBuf := by
        intro hx; have := h.ctl.last _ hx; omega
      simp [hfresh, h2]
    · by_cases h2 : s.log.buffer = some b <;> simp [h1, h2]
  · intro b c; dsimp only; rw [hhold, h.lent]
  · intro u b c hu _
    simp only [St.goto, St.createBuffer] at hu
    rw [hnch u] at hu; cases hu
  · intro u b c hh hb
    dsimp only at hh hb
    rw [hhold] at hh
    simp only [St.goto, St.createBuffer] at hb
    cases hb
    rw [hnew] at hh; cases hh
  · intro o b c ho hb
    dsimp only at hb ⊢
    rw [hhold]
    simp only [St.goto, St.createBuffer] at hb
    cases hb
    exact hnew c
  · intro b c hh
    dsimp only at hh
    rw [hhold] at hh
    have := h.born b c hh
    simp only [St.goto, St.createBuffer]
    omega
  · intro b c; dsimp only; rw [hadds, h.count]
  · intro u e b c _ hu
    simp only [St.goto, St.createBuffer] at hu
    rw [hnch u] at hu; cases hu

theorem Inv.free (h : Inv s) {b : Nat} (hb : s.log.status b = .handed) (hctl : Ctl { s.log with
      status := setf s.log.status b .freed }) :
    Inv { s with
      log := { s.log with status := setf s.log.status b .freed }
      calls := .destroyed b :: s.calls } := by
  have hnb : s.log.buffer ≠ some b := by
    intro hx; rw [← h.ctl.status] at hx; rw [hb] at hx; cases hx
  refine ⟨hctl, ⟨⟨?_, ?_⟩, h.legal⟩, ?_, h.inside, h.waits, h.retChunk, ?_, ?_, ?_, ?_, ?_, ?_, ?_,
    ?_, ?_, ?_⟩
  · rw [h.dead, hb]; simp
  · intro u hu; rw [h.busy] at hu; exact hnb (h.inside u b hu).2
  · intro u; simpa [Custom.busy] using h.busy u
  · intro u p c hu hr; simpa [holder] using h.gave u p c hu hr
  · intro b'
    have := h.gone b'
    simp only [Custom.gone, List.mem_cons, setf] at this ⊢
    by_cases h1 : b' = b
    · subst h1; simp
    · simp [h1, this]
  · intro b'
    have := h.dead b'
    simp only [Custom.dead, List.mem_cons, setf] at this ⊢
    by_cases h1 : b' = b
    · subst h1; simp
    · simp [h1, this]
  · simpa [holder] using h.lent
  · simpa [holder] using h.hold
  · simpa [holder] using h.kept
  · simpa [holder] using h.start
  · simpa [holder] using h.born
  · simpa [adds] using h.count
  · simpa [adds] using h.room

/-- The buffer leaves the log. -/
theorem Inv.retrieve (h : Inv s) {st : List Frame} {l : St ε}
    (hp : s.log.pc t = .held .user st) (hin : s.inCall t = none) (hoff : s.log.enabled = false)
    (hctl : Ctl l) (e1 : l.buffer = none)
    (e2 : l.status = fun b => if s.log.buffer = some b then .handed else s.log.status b)
    (e3 : l.pc = s.log.pc) (e4 : l.tenant = s.log.tenant) (e5 : l.nextBuf = s.log.nextBuf) :
    Inv { s with
      log := l
      calls := match s.log.enabled, s.log.buffer with
        | false, some b => .handed b :: s.calls
        | _, _ => s.calls } := by
  have hown : s.log.owner = some t := (h.ctl.own t).2 (by simp [hp, Pc.holdsMutex])
  have hpend : s.log.pend = [] := by simp [St.pend, hown, hp, Pc.pending]
  have hncm : ∀ u, (s.log.pc u).committed = false := by
    intro u
    cases hx : (s.log.pc u).committed
    · rfl
    · rcases h.ctl.comm u (.inr hx) with h1 | h1
      · rw [hoff] at h1; cases h1
      · rw [hpend] at h1; cases h1
  have hnch : ∀ u, (s.log.tenant u).chunk = none := by
    intro u
    by_contra hx
    rcases h.ctl.comm u (.inl hx) with h1 | h1
    · rw [hoff] at h1; cases h1
    · rw [hpend] at h1; cases h1
  have hnin : ∀ u, s.inCall u = none := by
    intro u
    cases hx : s.inCall u with
    | none => rfl
    | some p =>
      exfalso
      have hut : u ≠ t := by rintro rfl; rw [hin] at hx; cases hx
      have h1 := (h.inside u p hx).1
      have h2 := hncm u
      have h3 : (s.log.pc u).holdsMutex = false := by
        cases hy : (s.log.pc u).holdsMutex
        · rfl
        · have := (h.ctl.own u).2 hy; rw [hown] at this; cases this; exact absurd rfl hut
      revert h1 h2 h3
      generalize s.log.pc u = q
      intro h1 h2 h3
      cases q <;> simp [insidePc, Pc.committed, Pc.holdsMutex] at h1 h2 h3
  rw [hoff]
  generalize hcs : (match false, s.log.buffer with
        | false, some b => Call.handed b :: s.calls
        | _, _ => s.calls) = cs
  have hhold : ∀ b c, holder cs b c = holder s.calls b c := by
    intro b c; rw [← hcs]; split <;> simp [holder]
  have hadds : ∀ b c, adds cs b c = adds s.calls b c := by
    intro b c; rw [← hcs]; split <;> simp [adds]
  have hbusy : ∀ u, Custom.busy cs u = Custom.busy s.calls u := by
    intro u; rw [← hcs]; split <;> simp [Custom.busy]
  have hdead : ∀ b, Custom.dead cs b ↔ Custom.dead s.calls b := by
    intro b; rw [← hcs]; split <;> simp [Custom.dead]
  have hgone : ∀ b, Custom.gone cs b ↔ Custom.gone s.calls b ∨ s.log.buffer = some b := by
    intro b
    rw [← hcs]
    cases hb : s.log.buffer with
    | some b' => simp [Custom.gone]; grind
    | none => simp
  refine ⟨hctl, ?_, ?_, ?_, ?_, ?_, ?_, ?_, ?_, ?_, ?_, ?_, ?_, ?_, ?_, ?_⟩ <;> dsimp only
  · rw [← hcs]
    cases hb : s.log.buffer with
    | some b =>
      refine ⟨⟨?_, ?_⟩, h.legal⟩
      · rw [h.gone, (h.ctl.status b).2 hb]; simp
      · intro u; rw [h.busy, hnin u]; simp
    | none => exact h.legal
  · intro u; rw [hbusy, h.busy]
  · intro u p hu; rw [hnin u] at hu; cases hu
  · intro u e p hu; rw [e3] at hu; exact h.waits u e p hu
  · intro u p hu; rw [hnin u] at hu; cases hu
  · intro u p c hu; rw [hnin u] at hu; cases hu
  · intro b
    rw [hgone, h.gone, e2]
    by_cases h2 : s.log.buffer = some b <;> simp [h2]
  · intro b
    rw [hdead, h.dead, e2]
    by_cases h2 : s.log.buffer = some b
    · simp [h2, (h.ctl.status b).2 h2]
    · simp [h2]
  · intro b c; rw [hhold, h.lent]
  · intro u b c hu; rw [e4, hnch u] at hu; cases hu
  · intro u b c hh hb; rw [e1] at hb; cases hb
  · intro o b c ho hb; rw [e1] at hb; cases hb
  · intro b c hh; rw [hhold] at hh; rw [e5]; exact h.born b c hh
  · intro b c; rw [hadds, h.count]
  · intro u e b c _ hu; rw [e4, hnch u] at hu; cases hu

theorem Inv.plain (h : Inv s) (hin : s.inCall t = none) {c : Choice ε}
    (hc : ∀ l, s.log.next true tid t c = .to l → Same s.log l t)
    (hs : s.lift (s.log.next true tid t c) = .to s') : Inv s' := by
  unfold CSt.lift at hs
  split at hs
  · rename_i l hl
    cases hs
    exact h.same hin (h.ctl.next hl) (hc l hl)
  · cases hs
  · cases hs

theorem Inv.moveOut (h : Inv s) (hin : s.inCall t = none) {c : Choice ε}
    (hc : c = .getBuffer ∨ c = .getTraceContext)
    (hs : s.moveOut (s.log.next true tid t c) = .to s') : Inv s' := by
  unfold CSt.moveOut at hs
  split at hs
  case h_2 => cases hs
  case h_3 => cases hs
  case h_1 l hl =>
    cases hs
    have hctl := h.ctl.next hl
    rcases hc with rfl | rfl
    · simp only [St.next] at hl
      split at hl
      case h_2 => cases hl
      case h_1 st hp =>
        split at hl
        · rename_i he
          cases hl
          have := h.same hin hctl (Same.self rfl rfl rfl rfl rfl rfl (by simp [hp, Pc.isEnable])
            (by simp [hp]) (by simp [hp]))
          simp only [he] at this ⊢
          exact this
        · rename_i he
          cases hl
          exact h.retrieve hp hin (by simpa using he) hctl rfl rfl rfl rfl rfl
    · simp only [St.next] at hl
      split at hl
      case h_2 => cases hl
      case h_1 st hp =>
        split at hl
        · rename_i he
          cases hl
          have := h.same hin hctl (Same.self rfl rfl rfl rfl rfl rfl (by simp [hp, Pc.isEnable])
            (by simp [hp]) (by simp [hp]))
          simp only [he] at this ⊢
          exact this
        · rename_i he
          cases hl
          exact h.retrieve hp hin (by simpa using he) hctl rfl rfl rfl rfl rfl

theorem Inv.startStep (h : Inv s) (hin : s.inCall t = none) {cfg : TraceConfig}
    (hs : s.start t cfg = .to s') : Inv s' := by
  unfold CSt.start at hs
  split at hs
  case h_2 => cases hs
  case h_1 st hp =>
    split at hs
    · cases hs
    · rename_i hst
      have hst : finishing st = 0 := by simpa using hst
      have hc : Ctl { s.log with config := cfg, hist := .configure cfg :: s.log.hist } :=
        h.ctl.congr rfl rfl rfl rfl rfl rfl rfl rfl rfl
      dsimp only at hs
      split at hs
      · cases hs
        exact h.same hin (h.ctl.congr rfl rfl rfl rfl rfl rfl rfl rfl rfl)
          (Same.self rfl rfl rfl rfl rfl rfl (by simp [hp, Pc.isEnable]) (by simp [hp])
            (by simp [hp]))
      · split at hs
        · rename_i he
          cases hs
          refine h.same hin (hc.startStop hst he hp) ?_
          unfold St.beginStop
          refine Same.goto' rfl rfl rfl rfl (fun u => .inl rfl) ?_ ?_ ?_ ?_ ?_ <;>
            simp [Pc.committed, Pc.isEnable]
        · rename_i he
          cases hs
          refine h.same hin (hc.startFresh hst (by simpa using he) hp) ?_
          refine Same.goto' rfl rfl rfl rfl (fun u => .inl rfl) ?_ ?_ ?_ ?_ ?_ <;>
            simp [Pc.committed, Pc.isEnable]
          intro h1; exact .inl h1

theorem Legal.adds_le {h : List Call} (hl : Legal h) (b c : Nat) : adds h b c ≤ chunkSize := by
  induction h with
  | nil => simp [adds]
  | cons x h ih =>
    have := ih hl.2
    have hA := hl.1
    cases x with
    | getEnd t b' r =>
      cases r with
      | none => simpa [adds] using this
      | some c' => simp only [adds]; split <;> omega
    | add t b' c' =>
      simp only [adds]
      split
      · rename_i hy; obtain ⟨rfl, rfl⟩ := hy; have := hA.2.2.2; omega
      · exact this
    | _ => simpa [adds] using this

theorem Inv.stepStep (h : Inv s) (hin : s.inCall t = none) {sp : Bool}
    (hs : s.step tid t sp = .to s') : Inv s' := by
  have hplain : plainPc s.log t → ∀ {sp : Bool},
      s.lift (s.log.next true tid t (if sp then .spurious else .step)) = .to s' → Inv s' := by
    intro hpl sp hs
    refine h.plain hin ?_ hs
    intro l hl
    cases sp
    · exact same_step h.ctl hpl (by simpa using hl)
    · exact same_spurious h.ctl hpl (by simpa using hl)
  unfold CSt.step at hs
  split at hs
  case h_1 e hp =>
    split at hs
    case h_1 hc =>
      cases hs
      refine h.same hin (h.ctl.chunkReplace hp) ?_
      refine Same.goto' rfl rfl rfl rfl (fun u => .inl rfl) (fun h => .inl h) ?_ ?_ ?_ ?_ <;>
        simp [Pc.committed, Pc.isEnable]
    case h_2 b c hc =>
      split at hs
      · cases hs
        split
        · refine h.same hin (h.ctl.chunkReplace hp) ?_
          refine Same.goto' rfl rfl rfl rfl (fun u => .inl rfl) (fun h => .inl h) ?_ ?_ ?_ ?_ <;>
            simp [Pc.committed, Pc.isEnable]
        · rename_i hroom
          refine h.sameCore hin (h.ctl.chunkUse (by simp [hc]) hp) ?_ ?_
          · refine ⟨rfl, rfl, rfl, fun u hu => setf_ne _ _ hu, fun u => .inl rfl, fun h => .inl h,
              fun _ => .inr (.inr ?_), ?_, ?_⟩ <;> simp [St.goto, hc, setf_self, Pc.isEnable]
          · intro e' b' c' _ hc'
            simp only [St.goto] at hc'
            rw [hc] at hc'
            cases hc'
            have := h.legal.adds_le b c
            rw [h.count] at hroom
            omega
      · cases hs
  case h_2 e p hp =>
    split at hs
    · cases hs
    · rename_i b c hc
      exact h.giveBack hin hc (by simp [hp, returning]) (by simp [hp, insidePc]) hs
  case h_3 e p hp =>
    split at hs
    · cases hs; exact h.getBegin hp hin
    · cases hs
  case h_4 => cases hs
  case h_5 e hp =>
    split at hs
    · cases hs
    · rename_i b c hc
      split at hs
      · cases hs; exact h.add hp hin hc
      · cases hs
  case h_6 hp =>
    split at hs
    case h_1 b c p hi hc hb =>
      exact h.giveBack hin hc (by simp [hp, returning]) (by simp [hp, insidePc]) hs
    case h_2 hx =>
      refine hplain ?_ (sp := false) (by simpa using hs)
      simp only [plainPc, hp]
      rcases hi : (s.log.tenant t).initialised with _ | _
      · simp
      · rcases hc : (s.log.tenant t).chunk with _ | ⟨b, c⟩
        · simp
        · rcases hb : s.log.buffer with _ | p
          · simp
          · exact absurd hb (hx b c p hi hc)
  case h_7 n st hp =>
    cases hs
    exact h.create hp hin
  case h_8 =>
    refine hplain ?_ hs
    unfold plainPc
    split <;> simp_all

theorem Inv.next (h : Inv s) {a : Act ε} (hs : s.next tid t a = .to s') : Inv s' := by
  unfold CSt.next at hs
  split at hs
  · exact h.result hs
  · exact h.stats hs
  · rename_i c
    split at hs
    · rename_i p hin
      split at hs
      · exact h.leave hin hs
      · cases hs
    · rename_i hin
      split at hs
      · exact h.stepStep hin hs
      · exact h.stepStep hin hs
      · exact h.startStep hin hs
      · rename_i b
        split at hs
        · rename_i l hl
          cases hs
          have hctl := h.ctl.next hl
          simp only [St.next] at hl
          split at hl
          · rename_i hb
            cases hl
            exact h.free hb hctl
          · cases hl
        · cases hs
        · cases hs
      · exact h.moveOut hin (.inl rfl) hs
      · exact h.moveOut hin (.inr rfl) hs
      · refine h.plain hin ?_ hs
        intro l hl
        refine same_choice ?_ hl
        cases c <;> simp_all [plainChoice]

theorem Reachable.inv (h : Reachable tid s) : Inv s := by
  induction h with
  | init => exact Inv.init
  | step _ hs ih => exact ih.next hs

theorem giveBack_defined (h : Inv s) {p b c : Nat} (hc : (s.log.tenant t).chunk = some (b, c))
    (hb : s.log.buffer = some p) : s.giveBack t p b c ≠ .ub := by
  have h1 := h.ctl.chunkBuf t b c hc
  rw [hb] at h1
  cases h1
  simp [CSt.giveBack, mapped_buffer h.ctl hb]

theorem Inv.stepDefined (h : Inv s) {sp : Bool} :
    s.step tid t sp ≠ .ub := by
  have hplain : plainPc s.log t → ∀ {sp : Bool},
      s.lift (s.log.next true tid t (if sp then .spurious else .step)) ≠ .ub := by
    intro hpl sp hs
    unfold CSt.lift at hs
    split at hs
    · cases hs
    · rename_i hx; exact defined_step h.ctl hpl hx
    · cases hs
  intro hs
  unfold CSt.step at hs
  split at hs
  case h_1 e hp =>
    split at hs
    · cases hs
    · rename_i b c hc
      rw [mapped_buffer h.ctl (h.ctl.chunkBuf t b c hc)] at hs
      simp at hs
  case h_2 e p hp =>
    split at hs
    · rename_i hc
      exact h.ctl.needChunk t (by simp [hp, Pc.needChunk]) hc
    · rename_i b c hc
      exact giveBack_defined h hc (h.ctl.ptr t p (by simp [hp, Pc.bufPtr])) hs
  case h_3 e p hp =>
    rw [mapped_buffer h.ctl (h.ctl.ptr t p (by simp [hp, Pc.bufPtr]))] at hs
    simp at hs
  case h_4 => cases hs
  case h_5 e hp =>
    split at hs
    · rename_i hc
      exact h.ctl.needChunk t (by simp [hp, Pc.needChunk]) hc
    · rename_i b c hc
      have h1 := h.room t e b c hp hc
      rw [← h.count] at h1
      rw [mapped_buffer h.ctl (h.ctl.chunkBuf t b c hc)] at hs
      simp [h1] at hs
  case h_6 hp =>
    split at hs
    case h_1 b c p hi hc hb => exact giveBack_defined h hc hb hs
    case h_2 hx =>
      refine hplain ?_ (sp := false) (by simpa using hs)
      simp only [plainPc, hp]
      rcases hi : (s.log.tenant t).initialised with _ | _
      · simp
      · rcases hc : (s.log.tenant t).chunk with _ | ⟨b, c⟩
        · simp
        · rcases hb : s.log.buffer with _ | p
          · simp
          · exact absurd hb (hx b c p hi hc)
  case h_7 n st hp => cases hs
  case h_8 =>
    refine hplain ?_ hs
    unfold plainPc
    split <;> simp_all

end Phosphor.Custom
