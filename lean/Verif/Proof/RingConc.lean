import Verif.Model.RingConc
import Verif.Model.BufferSys
import Verif.Proof.BufferSys
import Verif.Props.Buffer
import Verif.Props.MpmcProgress
/-
The ring buffer over its queue refines the ring buffer whose queue operations are atomic
(Model/BufferSys).
-/
namespace Phosphor.RingConc
variable {ε : Type} {s s' : St} {t : Nat}

theorem capacity_pow {size : Nat} (h1 : 1 ≤ size) (h2 : size ≤ 2 ^ 32) :
    ∃ k, 1 ≤ k ∧ capacity size = 2 ^ k ∧ size ≤ 2 ^ k := by
  have hn : (BitVec.ofNat 64 size).toNat = size := by
    rw [BitVec.toNat_ofNat]; exact Nat.mod_eq_of_lt (by omega)
  obtain ⟨⟨k, hk⟩, h3, h4, _⟩ := C20_upper_power_of_two_partial (BitVec.ofNat 64 size) (by omega) (by omega)
  rw [hn] at h4
  refine ⟨k, ?_, hk, hk ▸ h4⟩
  rcases k with _ | k
  · rw [hk] at h3; exact absurd h3 (by decide)
  · omega

/-- The access is a step of the queue. -/
theorem qnext_step (n : Nat) (q : Mpmc.St Nat) (t : Nat) (sp : Bool) (h : q.pc t ≠ .idle) :
    Mpmc.Step n q (qnext n q t sp) := by
  unfold qnext
  split <;> rename_i hp
  · exact absurd hp h
  · exact .enqSeq hp
  · exact .enqReload hp
  · split
    · rename_i hc; exact .enqCasOk hp hc.1
    · exact .enqCasFail hp
  · exact .enqWrite hp
  · exact .enqPub hp
  · exact .deqSeq hp
  · exact .deqReload hp
  · split
    · rename_i hc; exact .deqCasOk hp hc.1
    · exact .deqCasFail hp
  · exact .deqRead hp
  · exact .deqPub hp

/-- Other threads are where they were. -/
theorem qnext_other (n : Nat) (q : Mpmc.St Nat) {t u : Nat} (sp : Bool) (h : u ≠ t) : (qnext n q t sp).pc u = q.pc u := by
  unfold qnext
  split <;> try split
  all_goals first
    | rfl
    | exact Mpmc.goto_other q _ h

/-- The chunk a thread has got from the buffer but not from `getChunk`, or has passed to
`returnChunk` but not yet given back. -/
def handOf (log : List Nat) : Pc → Mpmc.Pc Nat → Option Nat
  | .reset i, _ => i
  | .lend i, _ => some i
  | .give _, .enqWrite _ _ => none
  | .give _, .enqPub _ _ => none
  | .give i, _ => some i
  | .take, .deqRead pos => log[pos]?
  | .take, .deqPub pos _ => log[pos]?
  | _, _ => none

def St.hand (s : St) (t : Nat) : Option Nat := handOf s.q.log (s.pc t) (s.q.pc t)

/-- Waits for a chunk. -/
def waitsOf : Pc → Mpmc.Pc Nat → Bool
  | .take, .deqRead _ => false
  | .take, .deqPub _ _ => false
  | .take, _ => true
  | _, _ => false

def St.waits (s : St) (t : Nat) : Bool := waitsOf (s.pc t) (s.q.pc t)

/-- The queue is where the buffer has called it. -/
def Synced : Pc → Mpmc.Pc Nat → Prop
  | .take, q => q = .idle ∨ q.inDeq = true
  | .give i, q => q = .idle ∨ (∃ p, q = .enqSeq i p) ∨ q = .enqReload i ∨ (∃ p, q = .enqCas i p) ∨
      (∃ p, q = .enqWrite i p) ∨ ∃ p, q = .enqPub i p
  | _, q => q = .idle

/-- `A` is what `s` looks like with atomic queue operations. -/
structure Rel (s : St) (A : RingSys ε) : Prop where
  reach : A.Reachable 0 s.size
  q : Mpmc.Reachable (capacity s.size) s.q
  sync : ∀ t, Synced (s.pc t) (s.q.pc t)
  counter : A.b.counter = s.counter
  queue : A.b.queue = s.q.items
  returned : A.returned = s.q.log
  nodup : s.holds.Nodup
  apart : ∀ t i, (t, i) ∈ s.holds → s.hand t ≠ some i
  holds : ∀ t i, (t, i) ∈ A.holds ↔ (t, i) ∈ s.holds ∨ s.hand t = some i
  wait : ∀ t, t ∈ A.waiting ↔ s.waits t = true
  wnodup : A.waiting.Nodup
  own : ∀ t i, (t, i) ∈ s.holds ∨ s.pc t = .lend i → s.owner i = some t
  got : ∀ t, s.pc t ≠ .reset none

theorem handOf_log {n : Nat} {q : Mpmc.St Nat} (hi : Mpmc.Inv n q) (l : List Nat) (p : Pc) (u : Nat) :
    handOf (q.log ++ l) p (q.pc u) = handOf q.log p (q.pc u) := by
  have h : ∀ pos, (q.pc u).deqAt = some pos → (q.log ++ l)[pos]? = q.log[pos]? := by
    intro pos hp
    have h1 := (hi.rlt u pos hp).1
    have h2 := hi.deqLe
    rw [List.getElem?_append_left (by rw [hi.len]; omega)]
  cases p <;> try rfl
  · generalize hq : q.pc u = qp
    cases qp <;> first
      | rfl
      | exact h _ (by rw [hq]; rfl)
  · generalize hq : q.pc u = qp
    cases qp <;> rfl

/-- A step of `t` that changes neither owners nor loans. -/
theorem Rel.move {A A' : RingSys ε} (h : Rel s A) (hi : Mpmc.Inv (capacity s.size) s.q)
    (hsize : s'.size = s.size) (hq : Mpmc.Reachable (capacity s.size) s'.q)
    (hpc : ∀ u, u ≠ t → s'.pc u = s.pc u) (hqpc : ∀ u, u ≠ t → s'.q.pc u = s.q.pc u)
    (hlog : ∃ l, s'.q.log = s.q.log ++ l) (hown : s'.owner = s.owner) (hholds : s'.holds = s.holds)
    (hsync : Synced (s'.pc t) (s'.q.pc t)) (hlend : ∀ i, s'.pc t = .lend i → s.pc t = .lend i) (hgot : s'.pc t ≠ .reset none)
    (hreach : A'.Reachable 0 s.size) (hcounter : A'.b.counter = s'.counter) (hqueue : A'.b.queue = s'.q.items)
    (hret : A'.returned = s'.q.log) (ho : ∀ u i, u ≠ t → ((u, i) ∈ A'.holds ↔ (u, i) ∈ A.holds))
    (ht : ∀ i, (t, i) ∈ A'.holds ↔ (t, i) ∈ s.holds ∨ s'.hand t = some i)
    (ha : ∀ i, (t, i) ∈ s.holds → s'.hand t ≠ some i)
    (hwo : ∀ u, u ≠ t → (u ∈ A'.waiting ↔ u ∈ A.waiting)) (hwt : t ∈ A'.waiting ↔ s'.waits t = true)
    (hwn : A'.waiting.Nodup) : Rel s' A' := by
  have hh : ∀ u, u ≠ t → s'.hand u = s.hand u := by
    intro u hu
    obtain ⟨l, hl⟩ := hlog
    rw [St.hand, St.hand, hpc u hu, hqpc u hu, hl, handOf_log hi]
  refine ⟨hsize ▸ hreach, hsize ▸ hq, fun u => ?_, hcounter, hqueue, hret, hholds ▸ h.nodup, fun u i hm => ?_,
    fun u i => ?_, fun u => ?_, hwn, fun u i hm => ?_, fun u => ?_⟩
  · by_cases hu : u = t
    · exact hu ▸ hsync
    · rw [hpc u hu, hqpc u hu]; exact h.sync u
  · rw [hholds] at hm
    by_cases hu : u = t
    · subst hu; exact ha i hm
    · rw [hh u hu]; exact h.apart u i hm
  · rw [hholds]
    by_cases hu : u = t
    · subst hu; exact ht i
    · rw [hh u hu, ho u i hu]; exact h.holds u i
  · by_cases hu : u = t
    · subst hu; exact hwt
    · rw [hwo u hu, h.wait u, St.waits, St.waits, hpc u hu, hqpc u hu]
  · rw [hown]
    rw [hholds] at hm
    by_cases hu : u = t
    · subst hu; exact h.own u i (hm.imp_right (hlend i))
    · rw [hpc u hu] at hm; exact h.own u i hm
  · by_cases hu : u = t
    · subst hu; exact hgot
    · rw [hpc u hu]; exact h.got u

/-- A step of `t` that is none with atomic queue operations. -/
theorem Rel.stutter {A : RingSys ε} (h : Rel s A) (hi : Mpmc.Inv (capacity s.size) s.q)
    (hsize : s'.size = s.size) (hq : Mpmc.Reachable (capacity s.size) s'.q)
    (hpc : ∀ u, u ≠ t → s'.pc u = s.pc u) (hqpc : ∀ u, u ≠ t → s'.q.pc u = s.q.pc u)
    (hlog : s'.q.log = s.q.log) (hdeq : s'.q.deqPos = s.q.deqPos) (hown : s'.owner = s.owner) (hholds : s'.holds = s.holds)
    (hsync : Synced (s'.pc t) (s'.q.pc t)) (hlend : ∀ i, s'.pc t = .lend i → s.pc t = .lend i) (hgot : s'.pc t ≠ .reset none)
    (hcounter : s'.counter = s.counter) (hh : s'.hand t = s.hand t) (hw : s'.waits t = s.waits t) : Rel s' A := by
  refine h.move hi hsize hq hpc hqpc ⟨[], by rw [hlog, List.append_nil]⟩ hown hholds hsync hlend hgot h.reach
    (by rw [hcounter, h.counter]) ?_ (by rw [hlog, h.returned]) (fun _ _ _ => Iff.rfl) (fun i => ?_) (fun i hm => ?_)
    (fun _ _ => Iff.rfl) ?_ h.wnodup
  · rw [h.queue, Mpmc.St.items, Mpmc.St.items, hlog, hdeq]
  · rw [hh]; exact h.holds t i
  · rw [hh]; exact h.apart t i hm
  · rw [hw]; exact h.wait t

/-- The thread of an operation. -/
def opBy : RingOp → Nat
  | .claim h | .take h | .ret h _ => h

theorem enqNext_cases (x pos sq : Nat) : Mpmc.enqNext x pos sq = .idle ∨ Mpmc.enqNext x pos sq = .enqCas x pos ∨
    Mpmc.enqNext x pos sq = .enqReload x := by
  unfold Mpmc.enqNext
  dsimp only
  split
  · exact Or.inr (Or.inl rfl)
  · split
    · exact Or.inl rfl
    · exact Or.inr (Or.inr rfl)

theorem deqNext_cases (pos sq : Nat) : (Mpmc.deqNext pos sq : Mpmc.Pc Nat) = .idle ∨
    (Mpmc.deqNext pos sq : Mpmc.Pc Nat) = .deqCas pos ∨ (Mpmc.deqNext pos sq : Mpmc.Pc Nat) = .deqReload := by
  unfold Mpmc.deqNext
  dsimp only
  split
  · exact Or.inr (Or.inl rfl)
  · split
    · exact Or.inl rfl
    · exact Or.inr (Or.inr rfl)

theorem goto_pc (s : St) (t : Nat) (p : Pc) : (s.goto t p).pc t = p := by simp [St.goto]
theorem goto_pc_ne (s : St) {t u : Nat} (p : Pc) (h : u ≠ t) : (s.goto t p).pc u = s.pc u := by
  simp [St.goto, setf_ne _ _ h]

theorem St.hand_eq {q : Mpmc.Pc Nat} {p : Pc} (h1 : s.pc t = p) (h2 : s.q.pc t = q) : s.hand t = handOf s.q.log p q := by
  rw [St.hand, h1, h2]
theorem St.waits_eq {q : Mpmc.Pc Nat} {p : Pc} (h1 : s.pc t = p) (h2 : s.q.pc t = q) : s.waits t = waitsOf p q := by
  rw [St.waits, h1, h2]

theorem nodup_of_map {l : List (Nat × Nat)} (h : (l.map Prod.snd).Nodup) : l.Nodup := by
  induction l with
  | nil => exact List.nodup_nil
  | cons a l ih =>
    rw [List.map_cons, List.nodup_cons] at h
    exact List.nodup_cons.2 ⟨fun hm => h.1 (List.mem_map_of_mem hm), ih h.2⟩

theorem eq_of_nodup_map {l : List (Nat × Nat)} (h : (l.map Prod.snd).Nodup) {t u i : Nat} (h1 : (t, i) ∈ l)
    (h2 : (u, i) ∈ l) : t = u := by
  induction l with
  | nil => cases h1
  | cons a l ih =>
    rw [List.map_cons, List.nodup_cons] at h
    rcases List.mem_cons.1 h1 with e1 | e1 <;> rcases List.mem_cons.1 h2 with e2 | e2
    · rw [← e1] at e2; cases e2; rfl
    · subst e1; exact absurd (List.mem_map_of_mem (f := Prod.snd) e2) h.1
    · subst e2; exact absurd (List.mem_map_of_mem (f := Prod.snd) e1) h.1
    · exact ih h.2 e1 e2

section steps
variable {A : RingSys ε} {k : Nat}

/-- A call of the queue, or a step in it that does not claim a position and does not end it. -/
theorem Rel.inQueue (h : Rel s A) (hi : Mpmc.Inv (capacity s.size) s.q) {q' : Mpmc.St Nat}
    (hst : Mpmc.Step (capacity s.size) s.q q') (hqpc : ∀ u, u ≠ t → q'.pc u = s.q.pc u)
    (hlog : q'.log = s.q.log) (hdeq : q'.deqPos = s.q.deqPos)
    (hsync : Synced (s.pc t) (q'.pc t))
    (hh : handOf s.q.log (s.pc t) (q'.pc t) = handOf s.q.log (s.pc t) (s.q.pc t))
    (hw : waitsOf (s.pc t) (q'.pc t) = waitsOf (s.pc t) (s.q.pc t)) : Rel { s with q := q' } A := by
  refine h.stutter (s' := { s with q := q' }) hi rfl (.step h.q hst) (fun _ _ => rfl) hqpc hlog hdeq rfl rfl hsync
    (fun _ hx => hx) (h.got t) rfl ?_ hw
  show handOf q'.log _ _ = _
  rw [hlog]; exact hh

theorem Rel.take (h : Rel s A) (hi : Mpmc.Inv (capacity s.size) s.q) {sp : Bool} (hp : s.pc t = .take)
    (hs : s.access t sp = .to s') :
    ∃ A' : RingSys ε, (A' = A ∨ ∃ op, opBy op = t ∧ A.step op = some A') ∧ Rel s' A' := by
  have hsy := h.sync t
  rw [hp] at hsy
  have hself : ∀ p, (s.q.goto t p).pc t = p := fun p => Mpmc.goto_self s.q t p
  simp only [St.access, hp] at hs
  generalize hq : s.q.pc t = qp at hs hsy
  have hne : qp ≠ .idle → s.q.pc t ≠ .idle := fun h' => hq ▸ h'
  have hoth : ∀ u, u ≠ t → (qnext (capacity s.size) s.q t sp).pc u = s.q.pc u := fun u hu =>
    qnext_other _ _ _ hu
  cases qp with
  | idle =>
    cases hs
    refine ⟨A, Or.inl rfl, h.inQueue hi (.callDeq hq) (fun u hu => Mpmc.goto_other _ _ hu) rfl rfl ?_ ?_ ?_⟩
    · rw [hself, hp]; exact Or.inr rfl
    · rw [hself, hp, hq]; rfl
    · rw [hself, hp, hq]; rfl
  | enqSeq x pos => rcases hsy with hx | hx <;> cases hx
  | enqReload x => rcases hsy with hx | hx <;> cases hx
  | enqCas x pos => rcases hsy with hx | hx <;> cases hx
  | enqWrite x pos => rcases hsy with hx | hx <;> cases hx
  | enqPub x pos => rcases hsy with hx | hx <;> cases hx
  | deqSeq pos =>
    cases hs
    have hst := qnext_step (capacity s.size) s.q t sp (hne (by simp))
    have e : qnext (capacity s.size) s.q t sp =
        s.q.goto t (Mpmc.deqNext pos (s.q.seq (Mpmc.idx (capacity s.size) pos))) := by simp only [qnext, hq]
    rw [e] at hst ⊢
    refine ⟨A, Or.inl rfl, h.inQueue hi hst (fun u hu => Mpmc.goto_other _ _ hu) rfl rfl ?_ ?_ ?_⟩ <;>
      rw [hself, hp] <;> rcases deqNext_cases pos (s.q.seq (Mpmc.idx (capacity s.size) pos)) with e | e | e <;> rw [e]
    · exact Or.inl rfl
    · exact Or.inr rfl
    · exact Or.inr rfl
    all_goals rw [hq]; rfl
  | deqReload =>
    cases hs
    have hst := qnext_step (capacity s.size) s.q t sp (hne (by simp))
    have e : qnext (capacity s.size) s.q t sp = s.q.goto t (.deqSeq s.q.deqPos) := by simp only [qnext, hq]
    rw [e] at hst ⊢
    refine ⟨A, Or.inl rfl, h.inQueue hi hst (fun u hu => Mpmc.goto_other _ _ hu) rfl rfl ?_ ?_ ?_⟩
    · rw [hself, hp]; exact Or.inr rfl
    · rw [hself, hp, hq]; rfl
    · rw [hself, hp, hq]; rfl
  | deqCas pos =>
    cases hs
    have hst := qnext_step (capacity s.size) s.q t sp (hne (by simp))
    by_cases hc : s.q.deqPos = pos ∧ sp = false
    · have e : qnext (capacity s.size) s.q t sp = { s.q.goto t (.deqRead pos) with deqPos := pos + 1 } := by
        simp only [qnext, hq, if_pos hc]
      rw [e] at hst hoth ⊢
      have hpub : pos < s.q.enqPos := by
        have := hi.pcs t; rw [hq] at this; exact hi.pubLt _ this.2
      obtain ⟨x, hx⟩ : ∃ x, s.q.log[pos]? = some x := by
        rw [List.getElem?_eq_getElem (by rw [hi.len]; exact hpub)]; exact ⟨_, rfl⟩
      have hit : s.q.items = x :: s.q.log.drop (pos + 1) := by
        rw [Mpmc.St.items, hc.1]
        obtain ⟨hlt, he⟩ := List.getElem?_eq_some_iff.1 hx
        rw [← he, List.drop_eq_getElem_cons hlt]
      have hwt : t ∈ A.waiting := (h.wait t).2 (by rw [St.waits_eq hp hq]; rfl)
      obtain ⟨A', hA⟩ : ∃ A', A.step (.take t) = some A' := by
        simp only [RingSys.step, if_pos hwt, Buffer.ringTake, h.queue, hit]; exact ⟨_, rfl⟩
      have hA' := hA
      simp only [RingSys.step, if_pos hwt, Buffer.ringTake, h.queue, hit, Option.some.injEq] at hA'
      have hr' : A'.Reachable 0 s.size := .step h.reach hA
      refine ⟨A', Or.inr ⟨_, rfl, hA⟩, ?_⟩
      have hnew : (t, x) ∉ A.holds := by
        have := (C18_exclusive hr').1
        rw [← hA', List.map_cons, List.nodup_cons] at this
        exact fun hm => this.1 (List.mem_map_of_mem (f := Prod.snd) hm)
      have hhand : St.hand { s with q := { s.q.goto t (.deqRead pos) with deqPos := pos + 1 } } t = some x := by
        show handOf s.q.log (s.pc t) ((s.q.goto t _).pc t) = _
        rw [hp, hself]; exact hx
      have hold : s.hand t = none := by rw [St.hand_eq hp hq]; rfl
      refine h.move hi rfl (.step h.q hst) (fun _ _ => rfl) hoth ⟨[], (List.append_nil _).symm⟩ rfl rfl ?_
        (fun _ hx => hx) (h.got t) hr' ?_ ?_ ?_ (fun u i hu => ?_) (fun i => ?_) (fun i hm => ?_) (fun u hu => ?_) ?_ ?_
      · show Synced (s.pc t) ((s.q.goto t _).pc t)
        rw [hp, hself]; exact Or.inr rfl
      · rw [← hA']; exact h.counter
      · rw [← hA']; rfl
      · rw [← hA']; exact h.returned
      · rw [← hA']; simp [hu]
      · rw [← hA', hhand]
        have := h.holds t i
        rw [hold] at this
        simp only [List.mem_cons, Prod.mk.injEq, true_and, this, Option.some.injEq, reduceCtorEq, or_false]
        rw [or_comm, eq_comm]
      · rw [hhand]
        intro he
        cases he
        exact hnew ((h.holds t x).2 (Or.inl hm))
      · rw [← hA']; exact List.mem_erase_of_ne hu
      · have : St.waits { s with q := { s.q.goto t (.deqRead pos) with deqPos := pos + 1 } } t = false := by
          show waitsOf (s.pc t) ((s.q.goto t _).pc t) = _
          rw [hp, hself]; rfl
        rw [this, ← hA']
        simp [h.wnodup.mem_erase_iff]
      · rw [← hA']; exact h.wnodup.erase _
    · have e : qnext (capacity s.size) s.q t sp = s.q.goto t (.deqSeq s.q.deqPos) := by
        simp only [qnext, hq, if_neg hc]
      rw [e] at hst ⊢
      refine ⟨A, Or.inl rfl, h.inQueue hi hst (fun u hu => Mpmc.goto_other _ _ hu) rfl rfl ?_ ?_ ?_⟩
      · rw [hself, hp]; exact Or.inr rfl
      · rw [hself, hp, hq]; rfl
      · rw [hself, hp, hq]; rfl
  | deqRead pos =>
    cases hs
    have hst := qnext_step (capacity s.size) s.q t sp (hne (by simp))
    have e : qnext (capacity s.size) s.q t sp = s.q.goto t (.deqPub pos (s.q.data (Mpmc.idx (capacity s.size) pos))) := by
      simp only [qnext, hq]
    rw [e] at hst ⊢
    refine ⟨A, Or.inl rfl, h.inQueue hi hst (fun u hu => Mpmc.goto_other _ _ hu) rfl rfl ?_ ?_ ?_⟩
    · rw [hself, hp]; exact Or.inr rfl
    · rw [hself, hp, hq]; rfl
    · rw [hself, hp, hq]; rfl
  | deqPub pos v =>
    cases hs
    have hst := qnext_step (capacity s.size) s.q t sp (hne (by simp))
    have hpcs := hi.pcs t
    rw [hq] at hpcs
    have hqi : (qnext (capacity s.size) s.q t sp).pc t = .idle := by simp only [qnext, hq]; exact hself _
    refine ⟨A, Or.inl rfl, h.stutter hi rfl (.step h.q hst) (fun u hu => goto_pc_ne s _ hu) hoth ?_ ?_ rfl rfl ?_ ?_ ?_ rfl ?_ ?_⟩
    · simp only [qnext, hq]; rfl
    · simp only [qnext, hq]; rfl
    · show Synced ((s.goto t _).pc t) _
      rw [goto_pc, hqi]; rfl
    · intro i hx; exact absurd ((goto_pc s t _).symm.trans hx) (by simp)
    · intro hx
      have hv : Pc.reset v = .reset none := (goto_pc s t _).symm.trans hx
      have hlt := (hi.rlt t pos (by rw [hq]; rfl)).1
      have hle := hi.deqLe
      have hpcs' : s.q.log[pos]? = v := hpcs
      rw [List.getElem?_eq_getElem (by rw [hi.len]; omega)] at hpcs'
      rw [← hpcs'] at hv
      cases hv
    · rw [St.hand_eq hp hq]
      show handOf _ ((s.goto t _).pc t) ((qnext (capacity s.size) s.q t sp).pc t) = _
      rw [goto_pc, hqi]; exact hpcs.symm
    · rw [St.waits_eq hp hq]
      show waitsOf ((s.goto t _).pc t) ((qnext (capacity s.size) s.q t sp).pc t) = _
      rw [goto_pc, hqi]; rfl

theorem Rel.give (h : Rel s A) (hi : Mpmc.Inv (capacity s.size) s.q) {sp : Bool} {i : Nat} (hp : s.pc t = .give i)
    (hs : s.access t sp = .to s') :
    ∃ A' : RingSys ε, (A' = A ∨ ∃ op, opBy op = t ∧ A.step op = some A') ∧ Rel s' A' := by
  have hsy := h.sync t
  rw [hp] at hsy
  have hself : ∀ p, (s.q.goto t p).pc t = p := fun p => Mpmc.goto_self s.q t p
  have hoth : ∀ u, u ≠ t → (qnext (capacity s.size) s.q t sp).pc u = s.q.pc u := fun u hu =>
    qnext_other _ _ _ hu
  have hst := qnext_step (capacity s.size) s.q t sp
  simp only [St.access, hp] at hs
  rcases hsy with hq | ⟨pos, hq⟩ | hq | ⟨pos, hq⟩ | ⟨pos, hq⟩ | ⟨pos, hq⟩ <;> simp only [hq] at hs <;> cases hs <;>
    rw [hq] at hst
  · refine ⟨A, Or.inl rfl, h.inQueue hi (.callEnq hq) (fun u hu => Mpmc.goto_other _ _ hu) rfl rfl ?_ ?_ ?_⟩
    · rw [hself, hp]; exact Or.inr (Or.inl ⟨_, rfl⟩)
    · rw [hself, hp, hq]; rfl
    · rw [hself, hp, hq]; rfl
  · have hst := hst (by simp)
    have e : qnext (capacity s.size) s.q t sp =
        s.q.goto t (Mpmc.enqNext i pos (s.q.seq (Mpmc.idx (capacity s.size) pos))) := by simp only [qnext, hq]
    rw [e] at hst ⊢
    refine ⟨A, Or.inl rfl, h.inQueue hi hst (fun u hu => Mpmc.goto_other _ _ hu) rfl rfl ?_ ?_ ?_⟩ <;>
      rw [hself, hp] <;> rcases enqNext_cases i pos (s.q.seq (Mpmc.idx (capacity s.size) pos)) with e | e | e <;> rw [e]
    · exact Or.inl rfl
    · exact Or.inr (Or.inr (Or.inr (Or.inl ⟨_, rfl⟩)))
    · exact Or.inr (Or.inr (Or.inl rfl))
    all_goals rw [hq]; rfl
  · have hst := hst (by simp)
    have e : qnext (capacity s.size) s.q t sp = s.q.goto t (.enqSeq i s.q.enqPos) := by simp only [qnext, hq]
    rw [e] at hst ⊢
    refine ⟨A, Or.inl rfl, h.inQueue hi hst (fun u hu => Mpmc.goto_other _ _ hu) rfl rfl ?_ ?_ ?_⟩
    · rw [hself, hp]; exact Or.inr (Or.inl ⟨_, rfl⟩)
    · rw [hself, hp, hq]; rfl
    · rw [hself, hp, hq]; rfl
  · have hst := hst (by simp)
    by_cases hc : s.q.enqPos = pos ∧ sp = false
    · have e : qnext (capacity s.size) s.q t sp =
          { s.q.goto t (.enqWrite i pos) with enqPos := pos + 1, log := s.q.log ++ [i] } := by
        simp only [qnext, hq, if_pos hc]
      rw [e] at hst hoth ⊢
      have hin : (t, i) ∈ A.holds := (h.holds t i).2 (Or.inr (by rw [St.hand_eq hp hq]; rfl))
      obtain ⟨A', hA⟩ : ∃ A', A.step (.ret t i) = some A' := by
        simp only [RingSys.step, if_pos hin]; exact ⟨_, rfl⟩
      have hA' := hA
      simp only [RingSys.step, if_pos hin, Option.some.injEq] at hA'
      have hr' : A'.Reachable 0 s.size := .step h.reach hA
      have hnd : A.holds.Nodup := nodup_of_map (C18_exclusive h.reach).1
      have hhand : St.hand { s with q := { s.q.goto t (.enqWrite i pos) with enqPos := pos + 1, log := s.q.log ++ [i] } } t = none := by
        show handOf _ (s.pc t) ((s.q.goto t _).pc t) = _
        rw [hp, hself]; rfl
      have hold : s.hand t = some i := by rw [St.hand_eq hp hq]; rfl
      refine ⟨A', Or.inr ⟨_, rfl, hA⟩, h.move hi rfl (.step h.q hst) (fun _ _ => rfl) hoth ⟨[i], rfl⟩ rfl rfl ?_
        (fun _ hx => hx) (h.got t) hr' ?_ ?_ ?_ (fun u j hu => ?_) (fun j => ?_) (fun j hm => ?_) (fun u hu => ?_) ?_ ?_⟩
      · show Synced (s.pc t) ((s.q.goto t _).pc t)
        rw [hp, hself]; exact Or.inr (Or.inr (Or.inr (Or.inr (Or.inl ⟨_, rfl⟩))))
      · rw [← hA']; exact h.counter
      · rw [← hA']
        show A.b.queue ++ [i] = (s.q.log ++ [i]).drop s.q.deqPos
        rw [h.queue, Mpmc.St.items, List.drop_append_of_le_length (by rw [hi.len]; exact hi.deqLe)]
      · rw [← hA']; show A.returned ++ [i] = s.q.log ++ [i]; rw [h.returned]
      · rw [← hA']; exact List.mem_erase_of_ne (by simp [hu])
      · rw [← hA', hhand]
        show (t, j) ∈ A.holds.erase (t, i) ↔ _
        rw [hnd.mem_erase_iff, h.holds t j, hold]
        have := h.apart t j
        rw [hold] at this
        constructor
        · rintro ⟨h1, h2 | h2⟩
          · exact Or.inl h2
          · cases h2; exact absurd rfl h1
        · rintro (h2 | h2)
          · exact ⟨fun e => this h2 (by cases e; rfl), Or.inl h2⟩
          · cases h2
      · rw [hhand]; simp
      · rw [← hA']
      · have : St.waits { s with q := { s.q.goto t (.enqWrite i pos) with enqPos := pos + 1, log := s.q.log ++ [i] } } t = s.waits t := by
          show waitsOf (s.pc t) ((s.q.goto t _).pc t) = waitsOf (s.pc t) _
          rw [hp, hself]; rfl
        rw [this, ← hA']; exact h.wait t
      · rw [← hA']; exact h.wnodup
    · have e : qnext (capacity s.size) s.q t sp = s.q.goto t (.enqSeq i s.q.enqPos) := by
        simp only [qnext, hq, if_neg hc]
      rw [e] at hst ⊢
      refine ⟨A, Or.inl rfl, h.inQueue hi hst (fun u hu => Mpmc.goto_other _ _ hu) rfl rfl ?_ ?_ ?_⟩
      · rw [hself, hp]; exact Or.inr (Or.inl ⟨_, rfl⟩)
      · rw [hself, hp, hq]; rfl
      · rw [hself, hp, hq]; rfl
  · have hst := hst (by simp)
    have e : qnext (capacity s.size) s.q t sp =
        { s.q.goto t (.enqPub i pos) with data := setf s.q.data (Mpmc.idx (capacity s.size) pos) (some i) } := by
      simp only [qnext, hq]
    rw [e] at hst hoth ⊢
    refine ⟨A, Or.inl rfl, h.inQueue hi hst hoth rfl rfl ?_ ?_ ?_⟩ <;>
      rw [show ({ s.q.goto t (.enqPub i pos) with data := setf s.q.data (Mpmc.idx (capacity s.size) pos) (some i) } :
        Mpmc.St Nat).pc t = .enqPub i pos from hself _, hp]
    · exact Or.inr (Or.inr (Or.inr (Or.inr (Or.inr ⟨_, rfl⟩))))
    · rw [hq]; rfl
    · rw [hq]; rfl
  · have hst := hst (by simp)
    have hqi : (qnext (capacity s.size) s.q t sp).pc t = .idle := by simp only [qnext, hq]; exact hself _
    refine ⟨A, Or.inl rfl, h.stutter hi rfl (.step h.q hst) (fun u hu => goto_pc_ne s _ hu) hoth ?_ ?_ rfl rfl ?_ ?_ ?_ rfl ?_ ?_⟩
    · simp only [qnext, hq]; rfl
    · simp only [qnext, hq]; rfl
    · show Synced ((s.goto t _).pc t) _
      rw [goto_pc, hqi]; rfl
    · intro i hx; exact absurd ((goto_pc s t _).symm.trans hx) (by simp)
    · intro hx; exact absurd ((goto_pc s t _).symm.trans hx) (by simp)
    · rw [St.hand_eq hp hq]
      show handOf _ ((s.goto t _).pc t) ((qnext (capacity s.size) s.q t sp).pc t) = _
      rw [goto_pc, hqi]; rfl
    · rw [St.waits_eq hp hq]
      show waitsOf ((s.goto t _).pc t) ((qnext (capacity s.size) s.q t sp).pc t) = _
      rw [goto_pc, hqi]; rfl

theorem Rel.count (h : Rel s A) (hi : Mpmc.Inv (capacity s.size) s.q) {sp : Bool} (hp : s.pc t = .count)
    (hs : s.access t sp = .to s') :
    ∃ A' : RingSys ε, (A' = A ∨ ∃ op, opBy op = t ∧ A.step op = some A') ∧ Rel s' A' := by
  have hq : s.q.pc t = .idle := by have := h.sync t; rw [hp] at this; exact this
  have hsz : A.b.size = s.size := (ringInv h.reach).size
  have hold : s.hand t = none := by rw [St.hand_eq hp hq]; rfl
  have hwt : t ∉ A.waiting := fun hm => by
    have := (h.wait t).1 hm; rw [St.waits_eq hp hq] at this; cases this
  simp only [St.access, hp, Out.to.injEq] at hs
  by_cases hc : s.counter ≥ s.size
  · rw [if_pos hc] at hs
    have hA : A.step (.claim t) = some { A with b := { A.b with counter := A.b.counter + 1 }, waiting := t :: A.waiting } := by
      have : A.b.counter ≥ ({ A.b with counter := A.b.counter + 1 } : Buffer ε).size := by
        show A.b.counter ≥ A.b.size
        rw [h.counter, hsz]; exact hc
      simp only [RingSys.step, Buffer.ringClaim, if_pos this]
    refine ⟨_, Or.inr ⟨_, rfl, hA⟩, ?_⟩
    subst hs
    have hqt : Synced ((s.goto t .take).pc t) (s.q.pc t) := by rw [goto_pc, hq]; exact Or.inl rfl
    refine h.move (t := t) hi rfl h.q (fun u hu => goto_pc_ne s _ hu) (fun _ _ => rfl) ⟨[], (List.append_nil _).symm⟩ rfl rfl
      hqt ?_ ?_ (.step h.reach hA) ?_ h.queue h.returned (fun _ _ _ => Iff.rfl) (fun i => ?_) (fun i hm => ?_) (fun u hu => ?_) ?_ ?_
    · intro i hx; exact absurd ((goto_pc s t _).symm.trans hx) (by simp)
    · intro hx; exact absurd ((goto_pc s t _).symm.trans hx) (by simp)
    · show A.b.counter + 1 = s.counter + 1
      rw [h.counter]
    · have e : handOf s.q.log ((s.goto t .take).pc t) (s.q.pc t) = none := by rw [goto_pc, hq]; rfl
      show _ ↔ _ ∨ handOf s.q.log ((s.goto t .take).pc t) (s.q.pc t) = some i
      rw [e, ← hold]; exact h.holds t i
    · show handOf s.q.log ((s.goto t .take).pc t) (s.q.pc t) ≠ some i
      rw [goto_pc, hq]; simp [handOf]
    · exact ⟨fun hm => (List.mem_cons.1 hm).resolve_left hu, List.mem_cons_of_mem _⟩
    · have e : waitsOf ((s.goto t .take).pc t) (s.q.pc t) = true := by rw [goto_pc, hq]; rfl
      show _ ↔ waitsOf ((s.goto t .take).pc t) (s.q.pc t) = true
      rw [e]; simp
    · exact List.nodup_cons.2 ⟨hwt, h.wnodup⟩
  · rw [if_neg hc] at hs
    obtain ⟨A', hA⟩ : ∃ A', A.step (.claim t) = some A' := by
      simp only [RingSys.step, Buffer.ringClaim]
      split at * <;> exact ⟨_, rfl⟩
    have hA' := hA
    have hlt : ¬ A.b.counter ≥ ({ A.b with counter := A.b.counter + 1 } : Buffer ε).size := by
      show ¬ A.b.counter ≥ A.b.size
      rw [h.counter, hsz]; exact hc
    simp only [RingSys.step, Buffer.ringClaim, if_neg hlt, Option.some.injEq] at hA'
    have hr' : A'.Reachable 0 s.size := .step h.reach hA
    refine ⟨A', Or.inr ⟨_, rfl, hA⟩, ?_⟩
    have hnew : (t, s.counter) ∉ A.holds := by
      have := (C18_exclusive hr').1
      rw [← hA', List.map_cons, List.nodup_cons, h.counter] at this
      exact fun hm => this.1 (List.mem_map_of_mem (f := Prod.snd) hm)
    subst hs
    have hhand : handOf s.q.log ((s.goto t (.reset (some s.counter))).pc t) (s.q.pc t) = some s.counter := by
      rw [goto_pc]; rfl
    refine h.move (t := t) hi rfl h.q (fun u hu => goto_pc_ne s _ hu) (fun _ _ => rfl) ⟨[], (List.append_nil _).symm⟩ rfl rfl
      ?_ ?_ ?_ hr' ?_ ?_ ?_ (fun u i hu => ?_) (fun i => ?_) (fun i hm => ?_) (fun u hu => ?_) ?_ ?_
    · show Synced ((s.goto t _).pc t) _
      rw [goto_pc]; exact hq
    · intro i hx; exact absurd ((goto_pc s t _).symm.trans hx) (by simp)
    · intro hx; exact absurd ((goto_pc s t _).symm.trans hx) (by simp)
    · rw [← hA']
      show A.b.counter + 1 = s.counter + 1
      rw [h.counter]
    · rw [← hA']; exact h.queue
    · rw [← hA']; exact h.returned
    · rw [← hA']; simp [hu]
    · rw [← hA']
      show _ ↔ _ ∨ handOf s.q.log ((s.goto t (.reset (some s.counter))).pc t) (s.q.pc t) = some i
      have := h.holds t i
      rw [hold] at this
      rw [hhand]
      simp only [List.mem_cons, Prod.mk.injEq, true_and, this, Option.some.injEq, reduceCtorEq, or_false, h.counter]
      rw [or_comm, eq_comm]
    · show handOf s.q.log ((s.goto t (.reset (some s.counter))).pc t) (s.q.pc t) ≠ some i
      rw [hhand]
      intro he
      cases he
      exact hnew ((h.holds t _).2 (Or.inl hm))
    · rw [← hA']
    · rw [← hA']
      show _ ↔ waitsOf ((s.goto t (.reset (some s.counter))).pc t) (s.q.pc t) = true
      rw [goto_pc]
      exact ⟨fun hm => absurd hm hwt, fun hx => by cases hx⟩
    · rw [← hA']; exact h.wnodup

/-- Chunks in hand belong to the buffer. -/
theorem Rel.hand_lt (h : Rel s A) {i : Nat} (hh : s.hand t = some i) : i < s.size :=
  ((C18_exclusive h.reach).2.1 (t, i) ((h.holds t i).2 (Or.inr hh))).1

/-- Nobody else has the chunk. -/
theorem Rel.sole (h : Rel s A) {u i : Nat} (h1 : (t, i) ∈ s.holds ∨ s.hand t = some i) (h2 : (u, i) ∈ s.holds ∨ s.hand u = some i) :
    t = u := by
  exact eq_of_nodup_map (C18_exclusive h.reach).1 ((h.holds t i).2 h1) ((h.holds u i).2 h2)

/-- Every step is one with atomic queue operations, or none. -/
theorem Rel.next (h : Rel s A) (hi : Mpmc.Inv (capacity s.size) s.q) {c : Choice} (hs : s.next t c = .to s') :
    ∃ A' : RingSys ε, (A' = A ∨ ∃ op, opBy op = t ∧ A.step op = some A') ∧ Rel s' A' := by
  have acc : ∀ sp, s.access t sp = .to s' → ∃ A' : RingSys ε, (A' = A ∨ ∃ op, opBy op = t ∧ A.step op = some A') ∧ Rel s' A' := by
    intro sp hs
    have hs0 := hs
    unfold St.access at hs
    split at hs
    · cases hs
    · rename_i hp; exact h.count hi hp hs0
    · rename_i hp; exact h.take hi hp hs0
    · cases hs
    · rename_i i hp
      split at hs
      · rename_i hlt
        cases hs
        have hq : s.q.pc t = .idle := by have := h.sync t; rw [hp] at this; exact this
        have hhand : s.hand t = some i := by rw [St.hand_eq hp hq]; rfl
        have hne : ∀ u, u ≠ t → (s.goto t (.lend i)).pc u = s.pc u := fun u hu => goto_pc_ne s _ hu
        have heq : ∀ u, handOf s.q.log ((s.goto t (.lend i)).pc u) (s.q.pc u) = s.hand u := by
          intro u
          by_cases hu : u = t
          · subst hu; rw [goto_pc, hhand]; rfl
          · rw [hne u hu]; rfl
        refine ⟨A, Or.inl rfl, ⟨h.reach, h.q, fun u => ?_, h.counter, h.queue, h.returned, h.nodup, fun u j hm => ?_,
          fun u j => ?_, fun u => ?_, h.wnodup, fun u j hm => ?_, fun u hx => ?_⟩⟩
        · show Synced ((s.goto t (.lend i)).pc u) (s.q.pc u)
          by_cases hu : u = t
          · subst hu; rw [goto_pc]; exact hq
          · rw [hne u hu]; exact h.sync u
        · show handOf s.q.log ((s.goto t (.lend i)).pc u) (s.q.pc u) ≠ some j
          rw [heq]; exact h.apart u j hm
        · show _ ↔ _ ∨ handOf s.q.log ((s.goto t (.lend i)).pc u) (s.q.pc u) = some j
          rw [heq]; exact h.holds u j
        · show _ ↔ waitsOf ((s.goto t (.lend i)).pc u) (s.q.pc u) = true
          rw [h.wait u]
          by_cases hu : u = t
          · subst hu; rw [goto_pc, St.waits_eq hp hq]; rfl
          · rw [hne u hu]; rfl
        · show setf s.owner i (some t) j = some u
          by_cases hj : j = i
          · subst hj
            rw [setf_self]
            congr 1
            refine h.sole (Or.inr hhand) ?_
            rcases hm with hm | hm
            · exact Or.inl hm
            · right
              have := heq u
              rw [show (s.goto t (.lend j)).pc u = .lend j from hm] at this
              exact this.symm
          · rw [setf_ne _ _ hj]
            by_cases hu : u = t
            · subst hu
              rcases hm with hm | hm
              · exact h.own u j (Or.inl hm)
              · have hx := (goto_pc s u (.lend i)).symm.trans hm
                cases hx; exact absurd rfl hj
            · refine h.own u j (hm.imp_right fun hm => ?_)
              rw [← hne u hu]; exact hm
        · by_cases hu : u = t
          · subst hu; exact absurd ((goto_pc s u _).symm.trans hx) (by simp)
          · exact h.got u ((hne u hu).symm.trans hx)
      · cases hs
    · rename_i i hp
      cases hs
      have hq : s.q.pc t = .idle := by have := h.sync t; rw [hp] at this; exact this
      have hhand : s.hand t = some i := by rw [St.hand_eq hp hq]; rfl
      have hne : ∀ u, u ≠ t → (s.goto t .idle).pc u = s.pc u := fun u hu => goto_pc_ne s _ hu
      have hself : handOf s.q.log ((s.goto t .idle).pc t) (s.q.pc t) = none := by rw [goto_pc]; rfl
      have hoth : ∀ u, u ≠ t → handOf s.q.log ((s.goto t .idle).pc u) (s.q.pc u) = s.hand u := fun u hu => by
        rw [hne u hu]; rfl
      refine ⟨A, Or.inl rfl, ⟨h.reach, h.q, fun u => ?_, h.counter, h.queue, h.returned, ?_, fun u j hm => ?_,
          fun u j => ?_, fun u => ?_, h.wnodup, fun u j hm => ?_, fun u hx => ?_⟩⟩
      · show Synced ((s.goto t .idle).pc u) (s.q.pc u)
        by_cases hu : u = t
        · subst hu; rw [goto_pc]; exact hq
        · rw [hne u hu]; exact h.sync u
      · exact List.nodup_cons.2 ⟨fun hm => h.apart t i hm hhand, h.nodup⟩
      · show handOf s.q.log ((s.goto t .idle).pc u) (s.q.pc u) ≠ some j
        by_cases hu : u = t
        · subst hu; rw [hself]; simp
        · rw [hoth u hu]
          refine h.apart u j ((List.mem_cons.1 hm).resolve_left ?_)
          intro e; cases e; exact hu rfl
      · show _ ↔ _ ∨ handOf s.q.log ((s.goto t .idle).pc u) (s.q.pc u) = some j
        rw [h.holds u j]
        by_cases hu : u = t
        · subst hu
          rw [hself, hhand]
          simp only [List.mem_cons, Prod.mk.injEq, true_and, Option.some.injEq, reduceCtorEq, or_false]
          rw [or_comm, eq_comm]
        · rw [hoth u hu]
          simp [hu]
      · show _ ↔ waitsOf ((s.goto t .idle).pc u) (s.q.pc u) = true
        rw [h.wait u]
        by_cases hu : u = t
        · subst hu; rw [goto_pc, St.waits_eq hp hq]; rfl
        · rw [hne u hu]; rfl
      · rcases hm with hm | hm
        · rcases List.mem_cons.1 hm with hm | hm
          · cases hm; exact h.own t i (Or.inr hp)
          · exact h.own u j (Or.inl hm)
        · by_cases hu : u = t
          · subst hu; exact absurd ((goto_pc s u _).symm.trans hm) (by simp)
          · exact h.own u j (Or.inr ((hne u hu).symm.trans hm))
      · by_cases hu : u = t
        · subst hu; exact absurd ((goto_pc s u _).symm.trans hx) (by simp)
        · exact h.got u ((hne u hu).symm.trans hx)
    · rename_i i hp; exact h.give hi hp hs0
    · rename_i hp
      cases hs
      have hq : s.q.pc t = .idle := by have := h.sync t; rw [hp] at this; exact this
      refine ⟨A, Or.inl rfl, h.stutter (t := t) hi rfl h.q (fun u hu => goto_pc_ne s _ hu) (fun _ _ => rfl) rfl rfl rfl rfl ?_ ?_ ?_ rfl ?_ ?_⟩
      · show Synced ((s.goto t .idle).pc t) _
        rw [goto_pc]; exact hq
      · intro i hx; exact absurd ((goto_pc s t _).symm.trans hx) (by simp)
      · intro hx; exact absurd ((goto_pc s t _).symm.trans hx) (by simp)
      · rw [St.hand_eq hp hq]
        show handOf _ ((s.goto t .idle).pc t) _ = _
        rw [goto_pc]; rfl
      · rw [St.waits_eq hp hq]
        show waitsOf ((s.goto t .idle).pc t) _ = _
        rw [goto_pc]; rfl
  cases c with
  | step => exact acc _ hs
  | spurious => exact acc _ hs
  | get =>
    simp only [St.next] at hs
    split at hs
    · rename_i hp
      cases hs
      have hq : s.q.pc t = .idle := by have := h.sync t; rw [hp] at this; exact this
      refine ⟨A, Or.inl rfl, h.stutter (t := t) hi rfl h.q (fun u hu => goto_pc_ne s _ hu) (fun _ _ => rfl) rfl rfl rfl rfl ?_ ?_ ?_ rfl ?_ ?_⟩
      · show Synced ((s.goto t .count).pc t) _
        rw [goto_pc]; exact hq
      · intro i hx; exact absurd ((goto_pc s t _).symm.trans hx) (by simp)
      · intro hx; exact absurd ((goto_pc s t _).symm.trans hx) (by simp)
      · rw [St.hand_eq hp hq]
        show handOf _ ((s.goto t .count).pc t) _ = _
        rw [goto_pc]; rfl
      · rw [St.waits_eq hp hq]
        show waitsOf ((s.goto t .count).pc t) _ = _
        rw [goto_pc]; rfl
    · cases hs
  | ret i =>
    simp only [St.next] at hs
    split at hs
    · rename_i hc
      obtain ⟨hp, hin⟩ := hc
      cases hs
      have hq : s.q.pc t = .idle := by have := h.sync t; rw [hp] at this; exact this
      have hhand : s.hand t = none := by rw [St.hand_eq hp hq]; rfl
      have hne : ∀ u, u ≠ t → (s.goto t (.give i)).pc u = s.pc u := fun u hu => goto_pc_ne s _ hu
      have hself : handOf s.q.log ((s.goto t (.give i)).pc t) (s.q.pc t) = some i := by rw [goto_pc, hq]; rfl
      have hoth : ∀ u, u ≠ t → handOf s.q.log ((s.goto t (.give i)).pc u) (s.q.pc u) = s.hand u := fun u hu => by
        rw [hne u hu]; rfl
      refine ⟨A, Or.inl rfl, ⟨h.reach, h.q, fun u => ?_, h.counter, h.queue, h.returned, h.nodup.erase _, fun u j hm => ?_,
          fun u j => ?_, fun u => ?_, h.wnodup, fun u j hm => ?_, fun u hx => ?_⟩⟩
      · show Synced ((s.goto t (.give i)).pc u) (s.q.pc u)
        by_cases hu : u = t
        · subst hu; rw [goto_pc, hq]; exact Or.inl rfl
        · rw [hne u hu]; exact h.sync u
      · show handOf s.q.log ((s.goto t (.give i)).pc u) (s.q.pc u) ≠ some j
        have hm' := h.nodup.mem_erase_iff.1 hm
        by_cases hu : u = t
        · subst hu; rw [hself]; intro e; cases e; exact hm'.1 rfl
        · rw [hoth u hu]; exact h.apart u j hm'.2
      · show _ ↔ _ ∈ s.holds.erase (t, i) ∨ handOf s.q.log ((s.goto t (.give i)).pc u) (s.q.pc u) = some j
        rw [h.holds u j, h.nodup.mem_erase_iff]
        by_cases hu : u = t
        · subst hu
          rw [hself, hhand]
          by_cases hj : i = j
          · subst hj; simp [hin]
          · simp [hj, Ne.symm hj]
        · rw [hoth u hu]
          simp [hu]
      · show _ ↔ waitsOf ((s.goto t (.give i)).pc u) (s.q.pc u) = true
        rw [h.wait u]
        by_cases hu : u = t
        · subst hu; rw [goto_pc, St.waits_eq hp hq, hq]; rfl
        · rw [hne u hu]; rfl
      · rcases hm with hm | hm
        · exact h.own u j (Or.inl (h.nodup.mem_erase_iff.1 hm).2)
        · by_cases hu : u = t
          · subst hu; exact absurd ((goto_pc s u _).symm.trans hm) (by simp)
          · exact h.own u j (Or.inr ((hne u hu).symm.trans hm))
      · by_cases hu : u = t
        · subst hu; exact absurd ((goto_pc s u _).symm.trans hx) (by simp)
        · exact h.got u ((hne u hu).symm.trans hx)
    · cases hs

/-- No step is undefined. -/
theorem Rel.defined (h : Rel s A) (c : Choice) : s.next t c ≠ .ub := by
  have acc : ∀ sp, s.access t sp ≠ .ub := by
    intro sp
    unfold St.access
    split <;> try simp
    · split <;> simp
    · rename_i hp
      exact h.got t hp
    · rename_i i hp
      have hq : s.q.pc t = .idle := by have := h.sync t; rw [hp] at this; exact this
      exact h.hand_lt (t := t) (by rw [St.hand_eq hp hq]; rfl)
    · split <;> simp
  cases c with
  | step => exact acc _
  | spurious => exact acc _
  | get => simp only [St.next]; split <;> simp
  | ret i => simp only [St.next]; split <;> simp

end steps

end Phosphor.RingConc
