import Verif.Proof.Mpmc
import Verif.Props.Mpmc
/-
C75: the return queue is lock free. Model: Model/Mpmc (sequentially consistent memory).
-/
namespace Phosphor.Mpmc
variable {α : Type} {n t : Nat} {s s' a b : St α}

/-- Steps until the call returns if no other thread claims a position and no compare-exchange fails
spuriously: six with a position that is out of date, four with the current one. -/
def St.left (s : St α) : Pc α → Nat
  | .idle => 0
  | .enqSeq _ pos => if pos = s.enqPos then 4 else 6
  | .enqReload _ => 5
  | .enqCas _ pos => if pos = s.enqPos then 3 else 5
  | .enqWrite _ _ => 2
  | .enqPub _ _ => 1
  | .deqSeq pos => if pos = s.deqPos then 4 else 6
  | .deqReload => 5
  | .deqCas pos => if pos = s.deqPos then 3 else 5
  | .deqRead _ => 2
  | .deqPub _ _ => 1

/-- In `enqueue`. -/
def Pc.inEnq : Pc α → Bool
  | .enqSeq _ _ | .enqReload _ | .enqCas _ _ | .enqWrite _ _ | .enqPub _ _ => true
  | _ => false

/-- In `dequeue`. -/
def Pc.inDeq : Pc α → Bool
  | .deqSeq _ | .deqReload | .deqCas _ | .deqRead _ | .deqPub _ _ => true
  | _ => false

/-- The compare-exchange of thread `t` fails although the position is the expected one. -/
def Spurious (t : Nat) (a b : St α) : Prop :=
  (∃ x, a.pc t = .enqCas x a.enqPos ∧ b.pc t = .enqSeq x a.enqPos) ∨
  (a.pc t = .deqCas a.deqPos ∧ b.pc t = .deqSeq a.deqPos)

/-- A part of an execution seen from a call of thread `t`: the number of its own steps in the call,
how many of these are compare-exchanges that failed spuriously, and the number of positions other
threads claimed for enqueuing and for dequeuing. -/
inductive Call (n t : Nat) (s : St α) : St α → Nat → Nat → Nat → Nat → Prop
  | refl : Call n t s s 0 0 0 0
  | other {a b k j ce cd} : Call n t s a k j ce cd → Step n a b → b.pc t = a.pc t →
      Call n t s b k j (ce + (b.enqPos - a.enqPos)) (cd + (b.deqPos - a.deqPos))
  | own {a b k j ce cd} : Call n t s a k j ce cd → Step n a b → a.pc t ≠ .idle → b.pc t ≠ a.pc t →
      ¬ Spurious t a b → Call n t s b (k + 1) j ce cd
  | spurious {a b k j ce cd} : Call n t s a k j ce cd → Step n a b → Spurious t a b →
      Call n t s b (k + 1) (j + 1) ce cd

theorem goto_self (s : St α) (t : Nat) (p : Pc α) : (s.goto t p).pc t = p := by simp [St.goto]
theorem goto_other (s : St α) {t u : Nat} (p : Pc α) (h : u ≠ t) : (s.goto t p).pc u = s.pc u := by
  simp [St.goto, setf_ne _ _ h]

/-- The sequence number of the cell of the next position to enqueue at is not ahead of it. -/
theorem enqNext_fresh (hi : Inv n s) (hn : 1 ≤ n) (x : α) :
    enqNext x s.enqPos (s.seq (s.enqPos % n)) = .enqCas x s.enqPos ∨
    enqNext x s.enqPos (s.seq (s.enqPos % n)) = .idle := by
  have hle : s.seq (s.enqPos % n) ≤ s.enqPos := by
    by_cases hp : n ≤ s.enqPos → s.rel (s.enqPos - n) = true
    · exact Nat.le_of_eq (hi.enq_ready' hp)
    · have hge : n ≤ s.enqPos := by
        apply Classical.byContradiction; intro h'; exact hp (fun h => absurd h h')
      have hr : s.rel (s.enqPos - n) = false := by
        cases hr : s.rel (s.enqPos - n) with
        | false => rfl
        | true => exact absurd (fun _ => hr) hp
      have hm : (s.enqPos - n) % n = s.enqPos % n := by rw [← Nat.mod_eq_sub_mod hge]
      cases hpub : s.pub (s.enqPos - n) with
      | false => have := hi.claimed _ (by omega) hpub; rw [hm] at this; omega
      | true => have := (hi.full _ hpub hr).1; rw [hm] at this; omega
  unfold enqNext
  dsimp only
  split
  · exact Or.inl rfl
  · rw [if_pos (by omega)]; exact Or.inr rfl

/-- The sequence number of the cell of the next position to dequeue at is at most one ahead of it. -/
theorem deqNext_fresh (hi : Inv n s) (hn : 1 ≤ n) :
    (deqNext s.deqPos (s.seq (s.deqPos % n)) : Pc α) = .deqCas s.deqPos ∨
    (deqNext s.deqPos (s.seq (s.deqPos % n)) : Pc α) = .idle := by
  have hle : s.seq (s.deqPos % n) ≤ s.deqPos + 1 := by
    have hrel : s.rel s.deqPos = false := by
      cases hr : s.rel s.deqPos with
      | false => rfl
      | true => have := hi.relLt _ hr; omega
    cases hpub : s.pub s.deqPos with
    | true => have := (hi.full _ hpub hrel).1; omega
    | false =>
      have hd := hi.deqLe
      by_cases hlt : s.deqPos < s.enqPos
      · have := hi.claimed _ hlt hpub; omega
      · have he : s.deqPos = s.enqPos := by omega
        by_cases hpn : s.deqPos < n
        · have := hi.fresh s.deqPos hpn (by omega); rw [Nat.mod_eq_of_lt hpn]; omega
        · have hm : (s.deqPos - n) % n = s.deqPos % n := by
            rw [← Nat.mod_eq_sub_mod (by omega : n ≤ s.deqPos)]
          cases hr : s.rel (s.deqPos - n) with
          | true => have := hi.empty _ hr (by omega); rw [hm] at this; omega
          | false =>
            have := (hi.full _ (hi.deqPub (s.deqPos - n) (by omega)) hr).1
            rw [hm] at this; omega
  unfold deqNext
  dsimp only
  split
  · exact Or.inl rfl
  · rw [if_pos (by omega)]; exact Or.inr rfl

/-- Has claimed a position. -/
def Pc.claimed : Pc α → Bool
  | .enqWrite _ _ | .enqPub _ _ | .deqRead _ | .deqPub _ _ => true
  | _ => false

/-- What one step does, for the thread that makes it. -/
structure Local (u : Nat) (a b : St α) : Prop where
  others : ∀ v, v ≠ u → b.pc v = a.pc v
  moves : b.pc u ≠ a.pc u
  enq : b.enqPos ≤ a.enqPos + 1 ∧ a.enqPos ≤ b.enqPos
  deq : b.deqPos ≤ a.deqPos + 1 ∧ a.deqPos ≤ b.deqPos
  call : a.pc u = .idle → b.left (b.pc u) = 4 ∧ (b.pc u).claimed = false ∧ b.enqPos = a.enqPos ∧ b.deqPos = a.deqPos
  kindE : (a.pc u).inEnq = true → (b.pc u).inEnq = true ∨ b.pc u = .idle
  kindD : (a.pc u).inDeq = true → (b.pc u).inDeq = true ∨ b.pc u = .idle
  spur : Spurious u a b → b.left (b.pc u) = a.left (a.pc u) + 1 ∧ (b.pc u).claimed = false ∧ (a.pc u).claimed = false ∧
    b.enqPos = a.enqPos ∧ b.deqPos = a.deqPos
  less : a.pc u ≠ .idle → ¬ Spurious u a b → b.left (b.pc u) < a.left (a.pc u) ∧
    ((b.enqPos = a.enqPos ∧ b.deqPos = a.deqPos ∧ (b.pc u = .idle ∨ (b.pc u).claimed = (a.pc u).claimed)) ∨
     (b.enqPos + b.deqPos = a.enqPos + a.deqPos + 1 ∧ (a.pc u).claimed = false ∧ (b.pc u).claimed = true))

theorem enqNext_cases (x : α) (pos q : Nat) :
    (enqNext x pos q = .enqCas x pos) ∨ enqNext x pos q = .idle ∨ enqNext x pos q = .enqReload x := by
  unfold enqNext; dsimp only
  split
  · exact Or.inl rfl
  · split
    · exact Or.inr (Or.inl rfl)
    · exact Or.inr (Or.inr rfl)

theorem deqNext_cases (pos q : Nat) :
    ((deqNext pos q : Pc α) = .deqCas pos) ∨ (deqNext pos q : Pc α) = .idle ∨ (deqNext pos q : Pc α) = .deqReload := by
  unfold deqNext; dsimp only
  split
  · exact Or.inl rfl
  · split
    · exact Or.inr (Or.inl rfl)
    · exact Or.inr (Or.inr rfl)

theorem step_local {k : Nat} (hi : Inv (2 ^ k) a) (hst : Step (2 ^ k) a b) : ∃ u, Local u a b := by
  have hn : 1 ≤ 2 ^ k := Nat.one_le_two_pow
  cases hst with
  | @callEnq t x hp =>
    refine ⟨t, ⟨fun v hv => goto_other _ _ hv, ?_, ?_, ?_, ?_, ?_, ?_, ?_, ?_⟩⟩ <;>
      simp [hp, St.left, Pc.claimed, Pc.inEnq, Pc.inDeq, Spurious, St.goto]
  | @callDeq t hp =>
    refine ⟨t, ⟨fun v hv => goto_other _ _ hv, ?_, ?_, ?_, ?_, ?_, ?_, ?_, ?_⟩⟩ <;>
      simp [hp, St.left, Pc.claimed, Pc.inEnq, Pc.inDeq, Spurious, St.goto]
  | @enqSeq t x pos hp =>
    rw [idx_eq]
    refine ⟨t, ?_⟩
    by_cases hf : pos = a.enqPos
    · subst hf
      rcases enqNext_fresh hi hn x with e | e <;> rw [e] <;>
      refine ⟨fun v hv => goto_other _ _ hv, ?_, ?_, ?_, ?_, ?_, ?_, ?_, ?_⟩ <;>
        simp [hp, St.left, Pc.claimed, Pc.inEnq, Pc.inDeq, Spurious, St.goto]
    · rcases enqNext_cases x pos (a.seq (pos % 2 ^ k)) with e | e | e <;> rw [e] <;>
      refine ⟨fun v hv => goto_other _ _ hv, ?_, ?_, ?_, ?_, ?_, ?_, ?_, ?_⟩ <;>
        simp [hp, hf, St.left, Pc.claimed, Pc.inEnq, Pc.inDeq, Spurious, St.goto]
  | @deqSeq t pos hp =>
    rw [idx_eq]
    refine ⟨t, ?_⟩
    by_cases hf : pos = a.deqPos
    · subst hf
      rcases deqNext_fresh hi hn with e | e <;> rw [e] <;>
      refine ⟨fun v hv => goto_other _ _ hv, ?_, ?_, ?_, ?_, ?_, ?_, ?_, ?_⟩ <;>
        simp [hp, St.left, Pc.claimed, Pc.inEnq, Pc.inDeq, Spurious, St.goto]
    · rcases deqNext_cases (α := α) pos (a.seq (pos % 2 ^ k)) with e | e | e <;> rw [e] <;>
      refine ⟨fun v hv => goto_other _ _ hv, ?_, ?_, ?_, ?_, ?_, ?_, ?_, ?_⟩ <;>
        simp [hp, hf, St.left, Pc.claimed, Pc.inEnq, Pc.inDeq, Spurious, St.goto]
  | @enqCasFail t x pos hp =>
    refine ⟨t, ?_⟩
    by_cases hf : pos = a.enqPos
    · subst hf
      refine ⟨fun v hv => goto_other _ _ hv, ?_, ?_, ?_, ?_, ?_, ?_, ?_, ?_⟩ <;>
        simp [hp, St.left, Pc.claimed, Pc.inEnq, Pc.inDeq, Spurious, St.goto]
    · refine ⟨fun v hv => goto_other _ _ hv, ?_, ?_, ?_, ?_, ?_, ?_, ?_, ?_⟩ <;>
        simp [hp, hf, St.left, Pc.claimed, Pc.inEnq, Pc.inDeq, Spurious, St.goto]
  | @deqCasFail t pos hp =>
    refine ⟨t, ?_⟩
    by_cases hf : pos = a.deqPos
    · subst hf
      refine ⟨fun v hv => goto_other _ _ hv, ?_, ?_, ?_, ?_, ?_, ?_, ?_, ?_⟩ <;>
        simp [hp, St.left, Pc.claimed, Pc.inEnq, Pc.inDeq, Spurious, St.goto]
    · refine ⟨fun v hv => goto_other _ _ hv, ?_, ?_, ?_, ?_, ?_, ?_, ?_, ?_⟩ <;>
        simp [hp, hf, St.left, Pc.claimed, Pc.inEnq, Pc.inDeq, Spurious, St.goto]
  | @enqCasOk t x pos hp he =>
    subst he
    refine ⟨t, ⟨fun v hv => goto_other _ _ hv, ?_, ?_, ?_, ?_, ?_, ?_, ?_, ?_⟩⟩ <;>
      simp [hp, St.left, Pc.claimed, Pc.inEnq, Pc.inDeq, Spurious, St.goto] <;> omega
  | @deqCasOk t pos hp he =>
    subst he
    refine ⟨t, ⟨fun v hv => goto_other _ _ hv, ?_, ?_, ?_, ?_, ?_, ?_, ?_, ?_⟩⟩ <;>
      simp [hp, St.left, Pc.claimed, Pc.inEnq, Pc.inDeq, Spurious, St.goto] <;> omega
  | @enqReload t _ hp | @enqWrite t _ _ hp | @enqPub t _ _ hp | @deqReload t hp | @deqRead t _ hp | @deqPub t _ _ hp =>
    refine ⟨t, ⟨fun v hv => goto_other _ _ hv, ?_, ?_, ?_, ?_, ?_, ?_, ?_, ?_⟩⟩ <;>
      simp [hp, St.left, Pc.claimed, Pc.inEnq, Pc.inDeq, Spurious, St.goto]

/-- Another thread's claim costs a call at most two more steps; nothing else it does matters. -/
theorem left_enq (p : Pc α) (he : p.inDeq = false) (h : a.enqPos ≤ b.enqPos) :
    b.left p ≤ a.left p + 2 * (b.enqPos - a.enqPos) := by
  cases p <;> simp [Pc.inDeq] at he <;> simp only [St.left] <;> repeat' split
  all_goals omega

theorem left_deq (p : Pc α) (he : p.inEnq = false) (h : a.deqPos ≤ b.deqPos) :
    b.left p ≤ a.left p + 2 * (b.deqPos - a.deqPos) := by
  cases p <;> simp [Pc.inEnq] at he <;> simp only [St.left] <;> repeat' split
  all_goals omega

theorem Call.reachable {k i j ce cd : Nat} (h : Reachable (2 ^ k) s) (hc : Call (2 ^ k) t s s' i j ce cd) :
    Reachable (2 ^ k) s' := by
  induction hc with
  | refl => exact h
  | other _ hst _ ih => exact .step ih hst
  | own _ hst _ _ _ ih => exact .step ih hst
  | spurious _ hst _ ih => exact .step ih hst

theorem Local.unmoved {u v : Nat} (hl : Local u a b) (h : b.pc v = a.pc v) : v ≠ u := by
  rintro rfl; exact hl.moves h

theorem Local.moved {u v : Nat} (hl : Local u a b) (h : b.pc v ≠ a.pc v) : v = u := by
  apply Classical.byContradiction; intro h'; exact h (hl.others v h')

theorem Spurious.moves {v : Nat} (h : Spurious v a b) : b.pc v ≠ a.pc v := by
  rcases h with ⟨x, h1, h2⟩ | ⟨h1, h2⟩ <;> rw [h1, h2] <;> intro h <;> cases h

/-- C75 `enqueue`: a call needs four steps, two more for each position another thread claims for
enqueuing in the meantime, and two more for each spurious failure of its compare-exchange. Nothing
else other threads do, and no thread that stands still, can delay it. -/
theorem C75_enqueue {k i j ce cd : Nat} (hk : 1 ≤ k) (h : Reachable (2 ^ k) s) {x : α}
    (hp : s.pc t = .enqSeq x s.enqPos) (hc : Call (2 ^ k) t s s' i j ce cd) :
    i + s'.left (s'.pc t) ≤ 4 + 2 * ce + 2 * j ∧ ((s'.pc t).inEnq = true ∨ s'.pc t = .idle) := by
  induction hc with
  | refl => rw [hp]; simp [St.left, Pc.inEnq]
  | @other a b i j ce cd hc hst he ih =>
    obtain ⟨u, hl⟩ := step_local (inv_reachable hk (hc.reachable h)) hst
    rw [he]
    refine ⟨?_, ih.2⟩
    have := left_enq (a := a) (b := b) (a.pc t)
      (by rcases ih.2 with e | e
          · revert e; cases a.pc t <;> simp [Pc.inEnq, Pc.inDeq]
          · rw [e]; rfl) hl.enq.2
    omega
  | @own a b i j ce cd hc hst hne hm hs ih =>
    obtain ⟨u, hl⟩ := step_local (inv_reachable hk (hc.reachable h)) hst
    obtain rfl := hl.moved hm
    have := (hl.less hne hs).1
    refine ⟨by omega, ?_⟩
    rcases ih.2 with e | e
    · exact hl.kindE e
    · exact absurd e hne
  | @spurious a b i j ce cd hc hst hs ih =>
    obtain ⟨u, hl⟩ := step_local (inv_reachable hk (hc.reachable h)) hst
    obtain rfl := hl.moved hs.moves
    have := (hl.spur hs).1
    refine ⟨by omega, ?_⟩
    rcases ih.2 with e | e
    · exact hl.kindE e
    · rcases hs with ⟨_, h1, _⟩ | ⟨h1, _⟩ <;> rw [e] at h1 <;> cases h1

/-- C75 `dequeue`: likewise, with the positions other threads claim for dequeuing. -/
theorem C75_dequeue {k i j ce cd : Nat} (hk : 1 ≤ k) (h : Reachable (2 ^ k) s)
    (hp : s.pc t = .deqSeq s.deqPos) (hc : Call (2 ^ k) t s s' i j ce cd) :
    i + s'.left (s'.pc t) ≤ 4 + 2 * cd + 2 * j ∧ ((s'.pc t).inDeq = true ∨ s'.pc t = .idle) := by
  induction hc with
  | refl => rw [hp]; simp [St.left, Pc.inDeq]
  | @other a b i j ce cd hc hst he ih =>
    obtain ⟨u, hl⟩ := step_local (inv_reachable hk (hc.reachable h)) hst
    rw [he]
    refine ⟨?_, ih.2⟩
    have := left_deq (a := a) (b := b) (a.pc t)
      (by rcases ih.2 with e | e
          · revert e; cases a.pc t <;> simp [Pc.inEnq, Pc.inDeq]
          · rw [e]; rfl) hl.deq.2
    omega
  | @own a b i j ce cd hc hst hne hm hs ih =>
    obtain ⟨u, hl⟩ := step_local (inv_reachable hk (hc.reachable h)) hst
    obtain rfl := hl.moved hm
    have := (hl.less hne hs).1
    refine ⟨by omega, ?_⟩
    rcases ih.2 with e | e
    · exact hl.kindD e
    · exact absurd e hne
  | @spurious a b i j ce cd hc hst hs ih =>
    obtain ⟨u, hl⟩ := step_local (inv_reachable hk (hc.reachable h)) hst
    obtain rfl := hl.moved hs.moves
    have := (hl.spur hs).1
    refine ⟨by omega, ?_⟩
    rcases ih.2 with e | e
    · exact hl.kindD e
    · rcases hs with ⟨_, h1, _⟩ | ⟨h1, _⟩ <;> rw [e] at h1 <;> cases h1

/-! ### The system as a whole -/

/-- A part of an execution in which only the threads in `ts` make steps and no call returns: `i` steps
that are not spurious failures, and `j` that are. -/
inductive Busy (n : Nat) (ts : List Nat) (s : St α) : St α → Nat → Nat → Prop
  | refl : Busy n ts s s 0 0
  | step {a b i j} : Busy n ts s a i j → Step n a b → (∀ t, t ∉ ts → b.pc t = a.pc t) →
      (∀ t, a.pc t ≠ .idle → b.pc t ≠ .idle) → (∀ t, ¬ Spurious t a b) → Busy n ts s b (i + 1) j
  | spurious {a b i j t} : Busy n ts s a i j → Step n a b → t ∈ ts → Spurious t a b → Busy n ts s b i (j + 1)

/-- Weight of one thread among `m`. -/
def St.weight (s : St α) (m : Nat) (p : Pc α) : Nat :=
  match p with
  | .idle => 5 + 2 * m
  | p => s.left p + if p.claimed = true then 0 else 2 * m

def St.total (s : St α) (m : Nat) (ts : List Nat) : Nat := (ts.map fun t => s.weight m (s.pc t)).sum

theorem weight_idle (s : St α) (m : Nat) : s.weight m .idle = 5 + 2 * m := rfl

theorem weight_of {s : St α} {m : Nat} {p : Pc α} (h : p ≠ .idle) :
    s.weight m p = s.left p + if p.claimed = true then 0 else 2 * m := by
  cases p <;> first | rfl | exact absurd rfl h

theorem left_le (s : St α) (p : Pc α) : s.left p ≤ 6 := by
  cases p <;> simp only [St.left] <;> repeat' split
  all_goals omega

theorem weight_le (s : St α) (m : Nat) (p : Pc α) : s.weight m p ≤ 6 + 2 * m := by
  by_cases h : p = .idle
  · subst h; rw [weight_idle]; omega
  · rw [weight_of h]; have := left_le s p; split <;> omega

theorem total_le (s : St α) (m : Nat) (ts : List Nat) : s.total m ts ≤ ts.length * (6 + 2 * m) := by
  unfold St.total
  induction ts with
  | nil => simp
  | cons t ts ih =>
    have := weight_le s m (s.pc t)
    rw [List.map_cons, List.sum_cons, List.length_cons, Nat.add_mul]; omega

theorem left_claim (p : Pc α) {d : Nat} (he : a.enqPos ≤ b.enqPos) (hd : a.deqPos ≤ b.deqPos)
    (h : b.enqPos + b.deqPos = a.enqPos + a.deqPos + d) : b.left p ≤ a.left p + 2 * d := by
  cases hq : p.inDeq with
  | false => have := left_enq p hq he; omega
  | true =>
    have := left_deq p (by revert hq; cases p <;> simp [Pc.inDeq, Pc.inEnq]) hd; omega

theorem weight_claim (p : Pc α) {m d : Nat} (he : a.enqPos ≤ b.enqPos) (hd : a.deqPos ≤ b.deqPos)
    (h : b.enqPos + b.deqPos = a.enqPos + a.deqPos + d) : b.weight m p ≤ a.weight m p + 2 * d := by
  by_cases hp : p = .idle
  · subst hp; rw [weight_idle, weight_idle]; omega
  · rw [weight_of hp, weight_of hp]; have := left_claim p he hd h; omega

/-- Sum over threads of which one changes by itself and the others by at most `c`. -/
theorem sum_change {f g : Nat → Nat} {u c : Nat} {ts : List Nat} (nd : ts.Nodup) (hu : u ∈ ts)
    (hc : ∀ v, v ≠ u → g v ≤ f v + c) :
    (ts.map g).sum + f u + c ≤ (ts.map f).sum + g u + c * ts.length := by
  induction ts with
  | nil => cases hu
  | cons t ts ih =>
    rw [List.nodup_cons] at nd
    simp only [List.map_cons, List.sum_cons, List.length_cons, Nat.mul_succ]
    by_cases ht : t = u
    · subst ht
      have : (ts.map g).sum ≤ (ts.map f).sum + c * ts.length := by
        have hnot := nd.1
        clear ih nd hu
        induction ts with
        | nil => simp
        | cons v ts ih =>
          simp only [List.mem_cons, not_or] at hnot
          have := hc v (Ne.symm hnot.1)
          have := ih hnot.2
          simp only [List.map_cons, List.sum_cons, List.length_cons, Nat.mul_succ]; omega
      omega
    · have hu' : u ∈ ts := by
        rcases List.mem_cons.1 hu with e | e
        · exact absurd e.symm ht
        · exact e
      have := ih nd.2 hu'
      have := hc t ht
      omega

theorem Busy.reachable {k i j : Nat} {ts : List Nat} (h : Reachable (2 ^ k) s) (hc : Busy (2 ^ k) ts s s' i j) :
    Reachable (2 ^ k) s' := by
  induction hc with
  | refl => exact h
  | step _ hst _ _ _ ih => exact .step ih hst
  | spurious _ hst _ _ ih => exact .step ih hst

/-- C75, lock freedom: however `m` threads are scheduled and wherever some of them stand still, some
call of `enqueue` or `dequeue` returns within `m * (6 + 2 * m)` steps, not counting spurious failures
of compare-exchanges and one more step for each of these. -/
theorem C75_lock_free {k i j : Nat} (hk : 1 ≤ k) (h : Reachable (2 ^ k) s) {ts : List Nat} (nd : ts.Nodup)
    (hc : Busy (2 ^ k) ts s s' i j) : i ≤ ts.length * (6 + 2 * ts.length) + j := by
  suffices hh : i + s'.total ts.length ts ≤ s.total ts.length ts + j by
    have := total_le s ts.length ts; omega
  induction hc with
  | refl => omega
  | @step a b i j hc hst hts hno hns ih =>
    obtain ⟨u, hl⟩ := step_local (inv_reachable hk (hc.reachable h)) hst
    have hu : u ∈ ts := by
      apply Classical.byContradiction; intro h'; exact hl.moves (hts u h')
    generalize hm : ts.length = m at ih ⊢
    have hm0 : 1 ≤ m := by rw [← hm]; exact List.length_pos_of_mem hu
    suffices hh : b.total m ts + 1 ≤ a.total m ts by omega
    by_cases hi : a.pc u = .idle
    · obtain ⟨h1, h2, h3, h4⟩ := hl.call hi
      have hb : b.pc u ≠ .idle := by
        intro hb; rw [hb] at h1; simp [St.left] at h1
      have := sum_change (f := fun t => a.weight m (a.pc t)) (g := fun t => b.weight m (b.pc t)) (c := 0) nd hu
        (fun v hv => by
          rw [hl.others v hv]
          exact weight_claim (d := 0) _ (by omega) (by omega) (by omega))
      rw [hi, weight_idle, weight_of hb, h1, h2] at this
      simp only [St.total]
      simp at this
      omega
    · have hb := hno u hi
      obtain ⟨h1, h2 | h2⟩ := hl.less hi (hns u)
      · obtain ⟨h3, h4, h5⟩ := h2
        have h5 := h5.resolve_left hb
        have := sum_change (f := fun t => a.weight m (a.pc t)) (g := fun t => b.weight m (b.pc t)) (c := 0) nd hu
          (fun v hv => by
            rw [hl.others v hv]
            exact weight_claim (d := 0) _ (by omega) (by omega) (by omega))
        rw [weight_of hb, weight_of hi, h5] at this
        simp only [St.total]
        omega
      · obtain ⟨h3, h4, h5⟩ := h2
        have := sum_change (f := fun t => a.weight m (a.pc t)) (g := fun t => b.weight m (b.pc t)) (c := 2) nd hu
          (fun v hv => by
            rw [hl.others v hv]
            exact weight_claim (d := 1) _ hl.enq.2 hl.deq.2 h3)
        rw [weight_of hb, weight_of hi, h4, h5, hm] at this
        simp only [St.total]
        simp at this
        omega
  | @spurious a b i j u hc hst hu hs ih =>
    obtain ⟨u', hl⟩ := step_local (inv_reachable hk (hc.reachable h)) hst
    obtain rfl := hl.moved hs.moves
    obtain ⟨h1, h2, h3, h4, h5⟩ := hl.spur hs
    have hi : a.pc u ≠ .idle := by
      intro e; rcases hs with ⟨_, h1, _⟩ | ⟨h1, _⟩ <;> rw [e] at h1 <;> cases h1
    have hb : b.pc u ≠ .idle := by
      intro e; rcases hs with ⟨_, _, h1⟩ | ⟨_, h1⟩ <;> rw [e] at h1 <;> cases h1
    have := sum_change (f := fun t => a.weight ts.length (a.pc t)) (g := fun t => b.weight ts.length (b.pc t))
      (c := 0) nd hu
      (fun v hv => by
        rw [hl.others v hv]
        exact weight_claim (d := 0) _ (by omega) (by omega) (by omega))
    rw [weight_of hb, weight_of hi, h2, h3, h1] at this
    simp only [St.total] at ih ⊢
    omega

/-! ### Not wait free -/

/-- Steps of threads other than `t`. -/
inductive Others (n t : Nat) (a : St α) : St α → Prop
  | refl : Others n t a a
  | tail {b c} : Others n t a b → Step n b c → c.pc t = b.pc t → Others n t a c

theorem Call.others {i j ce cd : Nat} (hc : Call n t s a i j ce cd) (ho : Others n t a b) :
    ∃ ce' cd', Call n t s b i j ce' cd' := by
  induction ho with
  | refl => exact ⟨_, _, hc⟩
  | tail _ hst he ih => obtain ⟨_, _, ih⟩ := ih; exact ⟨_, _, ih.other hst he⟩

theorem solo_enq {u : Nat} (hut : t ≠ u) (x : α) (hp : a.pc u = .idle) (hs : a.seq (idx n a.enqPos) = a.enqPos) :
    ∃ b, Others n t a b ∧ (∀ v, v ≠ u → b.pc v = a.pc v) ∧ b.pc u = .idle ∧ b.enqPos = a.enqPos + 1 ∧
      b.deqPos = a.deqPos ∧ b.seq (idx n a.enqPos) = a.enqPos + 1 := by
  have s1 := Step.callEnq (n := n) (x := x) hp
  have s2 := Step.enqSeq (n := n) (s := a.goto u (.enqSeq x a.enqPos)) (t := u) (x := x) (pos := a.enqPos) (goto_self _ _ _)
  have e : enqNext x a.enqPos ((a.goto u (.enqSeq x a.enqPos)).seq (idx n a.enqPos)) = .enqCas x a.enqPos := by
    show enqNext x a.enqPos (a.seq (idx n a.enqPos)) = _
    rw [hs]; simp [enqNext]
  rw [e] at s2
  have s3 := Step.enqCasOk (n := n) (t := u) (x := x) (pos := a.enqPos)
    (s := (a.goto u (.enqSeq x a.enqPos)).goto u (.enqCas x a.enqPos)) (goto_self _ _ _) rfl
  have s4 := Step.enqWrite (n := n) (t := u) (x := x) (pos := a.enqPos)
    (s := { ((a.goto u (.enqSeq x a.enqPos)).goto u (.enqCas x a.enqPos)).goto u
      (.enqWrite x a.enqPos) with enqPos := a.enqPos + 1, log := a.log ++ [x] }) (by simp [St.goto])
  have s5 := Step.enqPub (n := n) (t := u) (x := x) (pos := a.enqPos)
    (s := { ({ ((a.goto u (.enqSeq x a.enqPos)).goto u (.enqCas x a.enqPos)).goto u
      (.enqWrite x a.enqPos) with enqPos := a.enqPos + 1, log := a.log ++ [x] } : St α).goto u
      (.enqPub x a.enqPos) with data := setf a.data (idx n a.enqPos) (some x) }) (by simp [St.goto])
  have g : ∀ (c : St α) (p : Pc α), (c.goto u p).pc t = c.pc t := fun c p => goto_other _ _ hut
  refine ⟨_, ((((Others.refl.tail s1 (g _ _)).tail s2 (g _ _)).tail s3 (g _ _)).tail s4 (g _ _)).tail s5 (g _ _),
    ?_, by simp [St.goto], rfl, rfl, by simp⟩
  intro v hv
  simp [St.goto, setf_ne _ _ hv]

theorem solo_deq {u : Nat} (hut : t ≠ u) (hp : a.pc u = .idle) (hs : a.seq (idx n a.deqPos) = a.deqPos + 1) :
    ∃ b, Others n t a b ∧ (∀ v, v ≠ u → b.pc v = a.pc v) ∧ b.pc u = .idle ∧ b.enqPos = a.enqPos ∧
      b.deqPos = a.deqPos + 1 := by
  have s1 := Step.callDeq (n := n) hp
  have s2 := Step.deqSeq (n := n) (s := a.goto u (.deqSeq a.deqPos)) (t := u) (pos := a.deqPos) (goto_self _ _ _)
  have e : (deqNext a.deqPos ((a.goto u (.deqSeq a.deqPos)).seq (idx n a.deqPos)) : Pc α) = .deqCas a.deqPos := by
    show deqNext a.deqPos (a.seq (idx n a.deqPos)) = _
    rw [hs]; simp [deqNext]
  rw [e] at s2
  have s3 := Step.deqCasOk (n := n) (t := u) (pos := a.deqPos)
    (s := (a.goto u (.deqSeq a.deqPos)).goto u (.deqCas a.deqPos)) (goto_self _ _ _) rfl
  have s4 := Step.deqRead (n := n) (t := u) (pos := a.deqPos)
    (s := { ((a.goto u (.deqSeq a.deqPos)).goto u (.deqCas a.deqPos)).goto u
      (.deqRead a.deqPos) with deqPos := a.deqPos + 1 }) (by simp [St.goto])
  have s5 := Step.deqPub (n := n) (t := u) (pos := a.deqPos) (v := a.data (idx n a.deqPos))
    (s := ({ ((a.goto u (.deqSeq a.deqPos)).goto u (.deqCas a.deqPos)).goto u
      (.deqRead a.deqPos) with deqPos := a.deqPos + 1 } : St α).goto u (.deqPub a.deqPos (a.data (idx n a.deqPos))))
    (by simp [St.goto])
  have g : ∀ (c : St α) (p : Pc α), (c.goto u p).pc t = c.pc t := fun c p => goto_other _ _ hut
  refine ⟨_, ((((Others.refl.tail s1 (g _ _)).tail s2 (g _ _)).tail s3 (g _ _)).tail s4 (g _ _)).tail s5 (g _ _),
    ?_, by simp [St.goto], rfl, rfl⟩
  intro v hv
  simp [St.goto, setf_ne _ _ hv]

/-- One round in which thread `u` overtakes the `enqueue` of thread `t`. -/
theorem overtaken {k i j ce cd u : Nat} (hk : 1 ≤ k) (hr : Reachable (2 ^ k) s) (hut : t ≠ u) {x : α}
    (hc : Call (2 ^ k) t s a i j ce cd) (hid : ∀ v, v ≠ t → a.pc v = .idle) (hp : a.pc t = .enqSeq x a.enqPos)
    (he : a.deqPos = a.enqPos) :
    ∃ b ce' cd', Call (2 ^ k) t s b (i + 2) j ce' cd' ∧ (∀ v, v ≠ t → b.pc v = .idle) ∧
      b.pc t = .enqSeq x b.enqPos ∧ b.deqPos = b.enqPos := by
  have hi := inv_reachable hk (hc.reachable hr)
  have hready : a.seq (idx (2 ^ k) a.enqPos) = a.enqPos := by
    rw [idx_eq]
    refine hi.enq_ready' (fun hge => ?_)
    cases hrel : a.rel (a.enqPos - 2 ^ k) with
    | true => rfl
    | false =>
      have : 1 ≤ 2 ^ k := Nat.one_le_two_pow
      obtain ⟨v, hv⟩ := hi.rex (a.enqPos - 2 ^ k) (by omega) hrel
      by_cases hvt : v = t
      · subst hvt; rw [hp] at hv; cases hv
      · rw [hid v hvt] at hv; cases hv
  obtain ⟨b, ho, h1, h2, h3, h4, h5⟩ := solo_enq (n := 2 ^ k) hut x (hid u (Ne.symm hut)) hready
  obtain ⟨_, _, c1⟩ := hc.others ho
  have bt : b.pc t = .enqSeq x a.enqPos := by rw [h1 t hut, hp]
  have st1 := Step.enqSeq (n := 2 ^ k) bt
  have e : enqNext x a.enqPos (b.seq (idx (2 ^ k) a.enqPos)) = .enqReload x := by
    rw [h5]; unfold enqNext; dsimp only; rw [if_neg (by omega), if_neg (by omega)]
  rw [e] at st1
  have c2 := c1.own st1 (by rw [bt]; simp) (by rw [goto_self, bt]; simp)
    (by rintro (⟨y, h6, _⟩ | ⟨h6, _⟩) <;> rw [bt] at h6 <;> cases h6)
  have st2 := Step.enqReload (n := 2 ^ k) (s := b.goto t (.enqReload x)) (t := t) (x := x) (goto_self _ _ _)
  have c3 := c2.own st2 (by rw [goto_self]; simp) (by rw [goto_self, goto_self]; simp)
    (by rintro (⟨y, h6, _⟩ | ⟨h6, _⟩) <;> rw [goto_self] at h6 <;> cases h6)
  obtain ⟨c, ho, g1, g2, g3, g4⟩ := solo_deq (n := 2 ^ k) (t := t) (u := u)
    (a := (b.goto t (.enqReload x)).goto t (.enqSeq x (b.goto t (.enqReload x)).enqPos)) hut
    (by rw [goto_other _ _ (Ne.symm hut), goto_other _ _ (Ne.symm hut)]; exact h2)
    (by show b.seq (idx (2 ^ k) b.deqPos) = b.deqPos + 1; rw [h4, he]; exact h5)
  obtain ⟨_, _, c4⟩ := c3.others ho
  refine ⟨c, _, _, c4, ?_, ?_, ?_⟩
  · intro v hv
    by_cases hvu : v = u
    · subst hvu; exact g2
    · rw [g1 v hvu, goto_other _ _ hv, goto_other _ _ hv, h1 v hvu]; exact hid v hv
  · rw [g1 t hut, goto_self, g3]; rfl
  · rw [g4, g3]; show b.deqPos + 1 = b.enqPos; rw [h4, h3, he]

/-- C75: the bound cannot do without the claims of others, `enqueue` is not wait free. Another thread
that goes on enqueuing and dequeuing can keep a call from returning for any number of steps, without
any spurious failure. -/
theorem C75_not_wait_free {k : Nat} (hk : 1 ≤ k) (x : α) (m : Nat) :
    ∃ (s s' : St α) (ce cd : Nat), Reachable (2 ^ k) s ∧ s.pc 0 = .enqSeq x s.enqPos ∧
      Call (2 ^ k) 0 s s' (2 * m) 0 ce cd ∧ (s'.pc 0).inEnq = true := by
  let s : St α := St.init.goto 0 (.enqSeq x 0)
  have hs : Reachable (2 ^ k) s := .step .init (.callEnq rfl)
  have : ∃ (s' : St α) (ce cd : Nat), Call (2 ^ k) 0 s s' (2 * m) 0 ce cd ∧ (∀ v, v ≠ 0 → s'.pc v = .idle) ∧
      s'.pc 0 = .enqSeq x s'.enqPos ∧ s'.deqPos = s'.enqPos := by
    induction m with
    | zero => exact ⟨s, 0, 0, .refl, fun v hv => goto_other _ _ hv, goto_self _ _ _, rfl⟩
    | succ m ih =>
      obtain ⟨a, ce, cd, h1, h2, h3, h4⟩ := ih
      obtain ⟨b, ce', cd', h5⟩ := overtaken (u := 1) hk hs (by decide) h1 h2 h3 h4
      exact ⟨b, ce', cd', h5⟩
  obtain ⟨s', ce, cd, h1, _, h3, _⟩ := this
  exact ⟨s, s', ce, cd, hs, goto_self _ _ _, h1, by rw [h3]; rfl⟩

/-- Two threads, the second overtaken once: `C75_enqueue` allows it six steps; two are made. -/
example : ∃ (s s' : St Nat) (ce cd : Nat), Reachable (2 ^ 3) s ∧ s.pc 0 = .enqSeq 5 s.enqPos ∧
    Call (2 ^ 3) 0 s s' 2 0 ce cd ∧ (s'.pc 0).inEnq = true ∧ s'.left (s'.pc 0) = 4 := by
  have h1 := (Call.refl (n := 2 ^ 3) (t := 0) (s := (St.init.goto 0 (.enqSeq 5 0) : St Nat)))
  have hr : Reachable (2 ^ 3) (St.init.goto 0 (.enqSeq 5 0) : St Nat) := .step .init (.callEnq rfl)
  obtain ⟨b, ce, cd, h2, _, h3, _⟩ := overtaken (u := 1) (by decide) hr (by decide) h1
    (fun v hv => goto_other _ _ hv) (goto_self _ _ _) rfl
  exact ⟨_, b, ce, cd, hr, rfl, h2, by rw [h3]; rfl, by rw [h3]; simp [St.left]⟩

/-- A thread that stands still with its position claimed; the other gets on without returning (here
it is in its third step). -/
example : ∃ (s s' : St Nat), Reachable (2 ^ 1) s ∧ s.pc 0 = .enqWrite 7 0 ∧ Busy (2 ^ 1) [0, 1] s s' 3 0 ∧
    s'.pc 1 = .enqWrite 8 1 := by
  have h0 : Reachable (2 ^ 1) (St.init : St Nat) := .init
  have h1 := Reachable.step h0 (.callEnq (t := 0) (x := 7) rfl)
  have h2 := Reachable.step h1 (.enqSeq (t := 0) (x := 7) (pos := 0) rfl)
  have h3 := Reachable.step h2 (.enqCasOk (t := 0) (x := 7) (pos := 0) rfl rfl)
  refine ⟨_, _, h3, rfl, .step (.step (.step .refl
    (.callEnq (t := 1) (x := 8) rfl) ?_ ?_ ?_) (.enqSeq (t := 1) (x := 8) (pos := 1) rfl) ?_ ?_ ?_)
    (.enqCasOk (t := 1) (x := 8) (pos := 1) rfl rfl) ?_ ?_ ?_, rfl⟩
  all_goals
    intro t
    match t with
    | 0 => first | (intro h; exact absurd (by decide : _ ∈ [0, 1]) h) | (intro _ h; cases h) | (rintro (⟨y, h, h'⟩ | ⟨h, h'⟩) <;> first | (cases h; done) | (cases h'; done))
    | 1 => first | (intro h; exact absurd (by decide : _ ∈ [0, 1]) h) | (intro _ h; cases h) | (intro h; exact absurd rfl h) | (rintro (⟨y, h, h'⟩ | ⟨h, h'⟩) <;> first | (cases h; done) | (cases h'; done))
    | t + 2 => first | (intro _; rfl) | (intro h; exact absurd rfl h) | (rintro (⟨y, h, h'⟩ | ⟨h, h'⟩) <;> cases h)

end Phosphor.Mpmc
