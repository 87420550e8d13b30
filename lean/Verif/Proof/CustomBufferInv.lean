import Verif.Proof.CustomBuffer
import Verif.Spec.CustomBuffer
import Mathlib.Tactic.ByContra
/-
The invariant of the log with buffers made by the user.
-/
namespace Phosphor.Custom
open TLog

variable {ε : Type} {tid : Nat → Nat}

/-- Where a thread inside a function of buffer `p` is. -/
def insidePc (p : Nat) : Pc ε → Prop
  | .getWait _ q | .retDo _ q => q = p
  | .deregBody | .held .user _ => True
  | _ => False

/-- The thread is inside `returnChunk` if it is inside any function of the buffer. -/
def returning : Pc ε → Bool
  | .retDo _ _ | .deregBody => true
  | _ => false

structure Inv (s : CSt ε) : Prop where
  ctl : Ctl s.log
  legal : Legal s.calls
  busy : ∀ t, busy s.calls t = s.inCall t
  inside : ∀ t p, s.inCall t = some p → insidePc p (s.log.pc t) ∧ s.log.buffer = some p
  waits : ∀ t e p, s.log.pc t = .getWait e p → s.inCall t = some p
  retChunk : ∀ t p, s.inCall t = some p → returning (s.log.pc t) = true →
    (s.log.tenant t).chunk ≠ none
  gave : ∀ t p c, s.inCall t = some p → returning (s.log.pc t) = true →
    holder s.calls p c ≠ some t
  gone : ∀ b, gone s.calls b ↔ s.log.status b = .handed ∨ s.log.status b = .freed
  dead : ∀ b, dead s.calls b ↔ s.log.status b = .freed
  lent : ∀ b c, s.lent b c = (holder s.calls b c).isSome
  hold : ∀ t b c, (s.log.tenant t).chunk = some (b, c) →
    s.inCall t = none ∨ returning (s.log.pc t) = false → holder s.calls b c = some t
  kept : ∀ t b c, holder s.calls b c = some t → s.log.buffer = some b →
    (s.log.tenant t).chunk = some (b, c) ∨
      s.log.enabled = false ∧ (s.log.pc t).committed = false ∧ (s.log.tenant t).chunk = none
  start : ∀ o b c, (s.log.pc o).isEnable = true → s.log.buffer = some b →
    holder s.calls b c = none
  born : ∀ b c, holder s.calls b c ≠ none → b < s.log.nextBuf
  count : ∀ b c, s.count b c = adds s.calls b c
  room : ∀ t e b c, s.log.pc t = .store e → (s.log.tenant t).chunk = some (b, c) →
    adds s.calls b c < chunkSize

theorem Inv.init : Inv (CSt.init : CSt ε) := by
  refine ⟨Ctl.init, trivial, ?_, ?_, ?_, ?_, ?_, ?_, ?_, ?_, ?_, ?_, ?_, ?_, ?_, ?_⟩ <;>
    simp [CSt.init, St.init, Custom.busy, Custom.gone, Custom.dead, holder, adds, Pc.isEnable]

theorem not_gone {s : CSt ε} (h : Inv s) {p : Nat} (hb : s.log.buffer = some p) :
    ¬ Custom.gone s.calls p := by
  rw [h.gone]
  have := (h.ctl.status p).2 hb
  simp [this]

theorem mapped_buffer {s : CSt ε} (h : Ctl s.log) {p : Nat} (hb : s.log.buffer = some p) :
    s.log.mapped p = true := by
  simp [St.mapped, (h.status p).2 hb]

/-- A step of thread `t`, which is not inside a function of the buffer, that leaves the buffer
alone. -/
theorem Inv.sameCore {s : CSt ε} {l : St ε} {t : Nat} (h : Inv s) (hi : s.inCall t = none)
    (hc : Ctl l) (hs : SameCore s.log l t)
    (k10 : ∀ e b c, l.pc t = .store e → (l.tenant t).chunk = some (b, c) →
      adds s.calls b c < chunkSize) : Inv { s with log := l } := by
  obtain ⟨k1, k2, k3, k4, k5, k6, k7, k8, k9⟩ := hs
  have hin : ∀ u p, s.inCall u = some p → l.pc u = s.log.pc u := by
    intro u p hu
    refine k4 u ?_
    rintro rfl; rw [hi] at hu; cases hu
  refine ⟨hc, h.legal, h.busy, ?_, ?_, ?_, ?_, ?_, ?_, h.lent, ?_, ?_, ?_, ?_, h.count, ?_⟩
  · intro u p hu
    have := h.inside u p hu
    rw [show ({ s with log := l } : CSt ε).log = l from rfl, hin u p hu, k1]; exact this
  · intro u e p hu
    by_cases hut : u = t
    · subst hut; exact absurd hu (k9 e p)
    · exact h.waits u e p (by rw [← k4 u hut]; exact hu)
  · intro u p hu hr
    dsimp only at hu hr ⊢
    rw [hin u p hu] at hr
    have h1 := h.retChunk u p hu hr
    obtain ⟨h2, h3⟩ := h.inside u p hu
    rcases k5 u with h4 | ⟨h4, h5 | h5⟩
    · rw [h4]; exact h1
    · rw [h3] at h5; cases h5
    · exfalso
      have h6 := (h.ctl.master u).2 h5
      cases hpc : s.log.pc u <;> simp [hpc, returning] at hr
      case retDo e q =>
        have := (h.ctl.slave u).2 (by simp [hpc, Pc.holdsSlave])
        rw [h6] at this; cases this
      case deregBody =>
        have ho := (h.ctl.own u).2 (by simp [hpc, Pc.holdsMutex])
        simp [St.mastered, ho, hpc, Pc.mastering] at h5
  · intro u p c hu hr
    dsimp only at hu hr ⊢
    rw [hin u p hu] at hr
    exact h.gave u p c hu hr
  · intro b; dsimp only; rw [k2]; exact h.gone b
  · intro b; dsimp only; rw [k2]; exact h.dead b
  · intro u b c hch hr
    dsimp only at hch hr ⊢
    have h1 : (s.log.tenant u).chunk = some (b, c) := by
      rcases k5 u with h4 | ⟨h4, _⟩
      · rw [← h4]; exact hch
      · rw [h4] at hch; cases hch
    refine h.hold u b c h1 ?_
    rcases hr with hr | hr
    · exact .inl hr
    · by_cases hut : u = t
      · subst hut; exact .inl hi
      · right; rw [← k4 u hut]; exact hr
  · intro u b c hh hb
    dsimp only at hh hb ⊢
    rw [k1] at hb
    have hne : (s.log.pc t).isEnable = false := by
      cases hx : (s.log.pc t).isEnable
      · rfl
      · have := h.start t b c hx hb; rw [hh] at this; cases this
    have hen : s.log.enabled = false → l.enabled = false := by
      intro hx
      cases hy : l.enabled
      · rfl
      · rcases k6 hy with h1 | h1
        · rw [hx] at h1; cases h1
        · rw [hne] at h1; cases h1
    have hcm : s.log.enabled = false → (s.log.pc u).committed = false →
        (l.tenant u).chunk = none → (l.pc u).committed = false := by
      intro hx hy hw
      by_cases hut : u = t
      · subst hut
        cases hz : (l.pc u).committed
        · rfl
        · rcases k7 hz with h1 | h1 | h1
          · rw [hy] at h1; cases h1
          · rw [hx] at h1; cases h1
          · exact absurd hw h1
      · rw [k4 u hut]; exact hy
    rcases h.kept u b c hh hb with h1 | ⟨h1, h2, h3⟩
    · rcases k5 u with h4 | ⟨h4, h5 | h5⟩
      · left; rw [h4]; exact h1
      · rw [hb] at h5; cases h5
      · right
        have h6 := (h.ctl.master u).2 h5
        have h7 : (s.log.pc u).committed = false := by
          cases hx : (s.log.pc u).committed
          · rfl
          · have := (h.ctl.slave u).2 (Pc.committed_spec _ hx).1
            rw [h6] at this; cases this
        have h8 : s.log.enabled = false := by
          unfold St.mastered at h5
          split at h5
          · cases h5
          · rename_i o ho
            refine h.ctl.off o ?_
            revert h5
            generalize s.log.pc o = q
            intro h5
            unfold Pc.mastering at h5
            split at h5 <;> simp_all [Pc.isOff]
        exact ⟨hen h8, hcm h8 h7 h4, h4⟩
    · right
      have h4 : (l.tenant u).chunk = none := by
        rcases k5 u with h4 | ⟨h4, _⟩
        · rw [h4]; exact h3
        · exact h4
      exact ⟨hen h1, hcm h1 h2 h4, h4⟩
  · intro o b c ho hb
    dsimp only at ho hb
    by_cases hut : o = t
    · subst hut; rw [k8] at ho; cases ho
    · exact h.start o b c (by rw [← k4 o hut]; exact ho) (by rw [← k1]; exact hb)
  · intro b c hh; dsimp only; rw [k3]; exact h.born b c hh
  · intro u e b c hpc hch
    dsimp only at hpc hch
    by_cases hut : u = t
    · subst hut; exact k10 e b c hpc hch
    · refine h.room u e b c (by rw [← k4 u hut]; exact hpc) ?_
      rcases k5 u with h4 | ⟨h4, _⟩
      · rw [← h4]; exact hch
      · rw [h4] at hch; cases hch

theorem Inv.same {s : CSt ε} {l : St ε} {t : Nat} (h : Inv s) (hi : s.inCall t = none)
    (hc : Ctl l) (hs : Same s.log l t) : Inv { s with log := l } :=
  h.sameCore hi hc hs.core (fun e _ _ hp => absurd hp (hs.notStore e))

/-- A call of thread `t`. -/
theorem Inv.call {s s' : CSt ε} {t : Nat} {x : Call} {v : Option Nat} (h : Inv s)
    (hctl : Ctl s'.log)
    (e1 : s'.log.buffer = s.log.buffer) (e2 : s'.log.status = s.log.status)
    (e3 : s'.log.nextBuf = s.log.nextBuf) (e4 : s'.log.enabled = s.log.enabled)
    (e5 : ∀ u, u ≠ t → s'.log.pc u = s.log.pc u)
    (e6 : ∀ u, u ≠ t → (s'.log.tenant u).chunk = (s.log.tenant u).chunk)
    (e7 : s'.calls = x :: s.calls) (e8 : s'.inCall = setf s.inCall t v)
    (hA : Allowed s.calls x)
    (b1 : Custom.busy (x :: s.calls) t = v)
    (b2 : ∀ u, u ≠ t → Custom.busy (x :: s.calls) u = Custom.busy s.calls u)
    (g1 : ∀ b, x ≠ .handed b) (g2 : ∀ b, x ≠ .destroyed b)
    (o1 : ∀ b c u, u ≠ t → (holder (x :: s.calls) b c = some u ↔ holder s.calls b c = some u))
    (o2 : ∀ b c u, u ≠ t → holder s.calls b c = some u → adds (x :: s.calls) b c = adds s.calls b c)
    (o3 : ∀ b c, holder (x :: s.calls) b c ≠ none →
      holder s.calls b c ≠ none ∨ s.log.buffer = some b ∧ (s.log.pc t).committed = true)
    (m1 : ∀ b c, s'.lent b c = (holder (x :: s.calls) b c).isSome)
    (m2 : ∀ b c, s'.count b c = adds (x :: s.calls) b c)
    (t1 : ∀ p, v = some p → insidePc p (s'.log.pc t) ∧ s.log.buffer = some p)
    (t2 : ∀ e p, s'.log.pc t = .getWait e p → v = some p)
    (t3 : v ≠ none → returning (s'.log.pc t) = true → (s'.log.tenant t).chunk ≠ none)
    (t8 : ∀ p c, v = some p → returning (s'.log.pc t) = true → holder (x :: s.calls) p c ≠ some t)
    (t4 : ∀ b c, (s'.log.tenant t).chunk = some (b, c) →
      v = none ∨ returning (s'.log.pc t) = false → holder (x :: s.calls) b c = some t)
    (t5 : ∀ b c, holder (x :: s.calls) b c = some t → s.log.buffer = some b →
      (s'.log.tenant t).chunk = some (b, c) ∨
        s.log.enabled = false ∧ (s'.log.pc t).committed = false ∧ (s'.log.tenant t).chunk = none)
    (t6 : (s'.log.pc t).isEnable = false)
    (t7 : ∀ e b c, s'.log.pc t = .store e → (s'.log.tenant t).chunk = some (b, c) →
      adds (x :: s.calls) b c < chunkSize) : Inv s' := by
  have hcm : (s.log.pc t).committed = true → ∀ o, (s.log.pc o).isEnable = true → False := by
    intro h1 o ho
    obtain ⟨h2, h3, h4, _⟩ := Pc.isEnable_spec _ ho
    rcases h.ctl.comm t (.inr h1) with h5 | h5
    · rw [h.ctl.off o h4] at h5; cases h5
    · have h6 := (h.ctl.own o).2 h2
      simp [St.pend, h6, h3] at h5
  refine ⟨hctl, ?_, ?_, ?_, ?_, ?_, ?_, ?_, ?_, ?_, ?_, ?_, ?_, ?_, ?_, ?_⟩
  · rw [e7]; exact ⟨hA, h.legal⟩
  · intro u
    rw [e7, e8]
    by_cases hu : u = t
    · subst hu; rw [b1, setf_self]
    · rw [b2 u hu, setf_ne _ _ hu, h.busy]
  · intro u p hp
    rw [e8] at hp
    by_cases hu : u = t
    · subst hu; rw [setf_self] at hp; rw [e1]; exact t1 p hp
    · rw [setf_ne _ _ hu] at hp; rw [e1, e5 u hu]; exact h.inside u p hp
  · intro u e p hp
    rw [e8]
    by_cases hu : u = t
    · subst hu; rw [setf_self]; exact t2 e p hp
    · rw [setf_ne _ _ hu]; rw [e5 u hu] at hp; exact h.waits u e p hp
  · intro u p hp hr
    rw [e8] at hp
    by_cases hu : u = t
    · subst hu; rw [setf_self] at hp; exact t3 (by rw [hp]; simp) hr
    · rw [setf_ne _ _ hu] at hp; rw [e6 u hu]; rw [e5 u hu] at hr; exact h.retChunk u p hp hr
  · intro u p c hp hr
    rw [e8] at hp
    rw [e7]
    by_cases hu : u = t
    · subst hu; rw [setf_self] at hp; exact t8 p c hp hr
    · rw [setf_ne _ _ hu] at hp; rw [e5 u hu] at hr
      exact fun hx => h.gave u p c hp hr ((o1 p c u hu).1 hx)
  · intro b
    rw [e7, e2, ← h.gone]
    simp only [Custom.gone, List.mem_cons]
    have := g1 b; have := g2 b
    grind
  · intro b
    rw [e7, e2, ← h.dead]
    simp only [Custom.dead, List.mem_cons]
    have := g2 b
    grind
  · rw [e7]; exact m1
  · intro u b c hch hr
    rw [e7]
    by_cases hu : u = t
    · subst hu; rw [e8, setf_self] at hr; exact t4 b c hch hr
    · rw [e8, setf_ne _ _ hu, e5 u hu] at hr; rw [e6 u hu] at hch
      exact (o1 b c u hu).2 (h.hold u b c hch hr)
  · intro u b c hh hb
    rw [e7] at hh; rw [e1] at hb; rw [e4]
    by_cases hu : u = t
    · subst hu; exact t5 b c hh hb
    · rw [e6 u hu, e5 u hu]; exact h.kept u b c ((o1 b c u hu).1 hh) hb
  · intro o b c ho hb
    rw [e7]; rw [e1] at hb
    by_cases hu : o = t
    · subst hu; rw [t6] at ho; cases ho
    · rw [e5 o hu] at ho
      by_contra hn
      rcases o3 b c hn with h1 | ⟨_, h1⟩
      · exact h1 (h.start o b c ho hb)
      · exact hcm h1 o ho
  · intro b c hh
    rw [e7] at hh; rw [e3]
    rcases o3 b c hh with h1 | ⟨h1, _⟩
    · exact h.born b c h1
    · have := h.ctl.last b h1; omega
  · rw [e7]; exact m2
  · intro u e b c hpc hch
    rw [e7]
    by_cases hu : u = t
    · subst hu; exact t7 e b c hpc hch
    · rw [e5 u hu] at hpc; rw [e6 u hu] at hch
      rw [o2 b c u hu (h.hold u b c hch (.inr (by simp [hpc, returning])))]
      exact h.room u e b c hpc hch

end Phosphor.Custom
