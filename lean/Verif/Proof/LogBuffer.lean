import Verif.Model.LogBuffer
import Verif.Props.RingConc
/-
The built-in buffers, seen from their callers.
-/
namespace Phosphor.LogBuf
open TLog

/-- What a thread does in a buffer. -/
inductive Phase
  | out | getting | returning
  deriving DecidableEq, Repr

def fPhase : FPc → Phase
  | .idle => .out
  | .unlend => .returning
  | _ => .getting

def rPhase : RingConc.Pc → Phase
  | .idle => .out
  | .give _ | .unlend => .returning
  | _ => .getting

def Buf.phase (b : Buf) (t : Nat) : Phase :=
  match b with
  | .fixed s => fPhase (s.pc t)
  | .ring s => rPhase (s.pc t)

def Buf.holds : Buf → List (Nat × Nat)
  | .fixed s => s.holds
  | .ring s => s.holds

def Buf.size : Buf → Nat
  | .fixed s => s.size
  | .ring s => s.size

/-- The thread id in the header of a chunk. -/
def Buf.owner (b : Buf) (i : Nat) : Option Nat :=
  match b with
  | .fixed s => s.owner i
  | .ring s => s.owner i

/-- The chunk a thread has been issued and not yet got. -/
def FPc.hand : FPc → Option Nat
  | .reset i | .lend i => some i
  | _ => none

structure FInv (s : FSt) : Prop where
  nodup : s.holds.Nodup
  sole : ∀ t u i, (t, i) ∈ s.holds → (u, i) ∈ s.holds → t = u
  lt : ∀ t i, (t, i) ∈ s.holds → i < s.issued ∧ i < s.size ∧ s.owner i = some t
  hand : ∀ t i, (s.pc t).hand = some i → i < s.issued ∧ i < s.size ∧ ∀ u, (u, i) ∉ s.holds
  apart : ∀ t u i, (s.pc t).hand = some i → (s.pc u).hand = some i → t = u
  own : ∀ t i, s.pc t = .lend i → s.owner i = some t

theorem FInv.init (n : Nat) : FInv (FSt.init n) := by
  constructor <;> simp [FSt.init, FPc.hand]

/-- A buffer in a state that its callers can bring it to. -/
def Buf.Good : Buf → Prop
  | .fixed s => FInv s
  | .ring s => ∃ n, 1 ≤ n ∧ n ≤ 2 ^ 32 ∧ RingConc.Reachable n s

theorem good_init (cfg : TraceConfig) {n : Nat} (h1 : 1 ≤ n) (h2 : n ≤ 2 ^ 32) :
    (Buf.init cfg n).Good ∧ (Buf.init cfg n).holds = [] ∧ ∀ t, (Buf.init cfg n).phase t = .out := by
  unfold Buf.init
  split
  · exact ⟨⟨n, h1, h2, .init⟩, rfl, fun _ => rfl⟩
  · exact ⟨FInv.init n, rfl, fun _ => rfl⟩

theorem fPhase_out {p : FPc} : fPhase p = .out ↔ p = .idle := by cases p <;> simp [fPhase]
theorem rPhase_out {p : RingConc.Pc} : rPhase p = .out ↔ p = .idle := by cases p <;> simp [rPhase]

theorem FInv.get {s : FSt} {t : Nat} (h : FInv s) : FInv { s with pc := setf s.pc t .count } := by
  refine ⟨h.nodup, h.sole, h.lt, ?_, ?_, ?_⟩
  · intro u i hu
    by_cases e : u = t
    · subst e; simp [setf_self, FPc.hand] at hu
    · simp only [setf_ne _ _ e] at hu; exact h.hand u i hu
  · intro u v i hu hv
    by_cases e : u = t
    · subst e; simp [setf_self, FPc.hand] at hu
    · by_cases e' : v = t
      · subst e'; simp [setf_self, FPc.hand] at hv
      · simp only [setf_ne _ _ e] at hu; simp only [setf_ne _ _ e'] at hv; exact h.apart u v i hu hv
  · intro u i hu
    by_cases e : u = t
    · subst e; simp [setf_self] at hu
    · simp only [setf_ne _ _ e] at hu; exact h.own u i hu

theorem good_get {b : Buf} {t : Nat} (h : b.Good) (ht : b.phase t = .out) :
    ∃ b', b.get t = some b' ∧ b'.Good ∧ b'.holds = b.holds ∧ b'.phase t = .getting ∧
      ∀ u, u ≠ t → b'.phase u = b.phase u := by
  cases b with
  | fixed s =>
    have hp : s.pc t = .idle := fPhase_out.1 ht
    refine ⟨.fixed { s with pc := setf s.pc t .count }, ?_, FInv.get h, rfl, ?_, ?_⟩
    · simp [Buf.get, FSt.get, hp]
    · simp [Buf.phase, setf_self, fPhase]
    · intro u hu; simp [Buf.phase, setf_ne _ _ hu]
  | ring s =>
    have hp : s.pc t = .idle := rPhase_out.1 ht
    obtain ⟨n, h1, h2, hr⟩ := h
    have e : s.next t .get = .to (s.goto t .count) := by simp [RingConc.St.next, hp]
    refine ⟨.ring (s.goto t .count), ?_, ⟨n, h1, h2, .step hr e⟩, rfl, ?_, ?_⟩
    · simp [Buf.get, e, Buf.ringTo]
    · simp [Buf.phase, RingConc.St.goto, setf_self, rPhase]
    · intro u hu; simp [Buf.phase, RingConc.St.goto, setf_ne _ _ hu]

theorem good_nodup {b : Buf} (h : b.Good) : b.holds.Nodup := by
  cases b with
  | fixed s => exact FInv.nodup h
  | ring s =>
    obtain ⟨n, h1, h2, hr⟩ := h
    obtain ⟨A, hA⟩ := hr.rel h1 h2 Unit
    exact hA.nodup

theorem FInv.quit {s : FSt} {t : Nat} {q : FPc} (h : FInv s) (hq : q.hand = none) {hs : List (Nat × Nat)}
    {o : Int} (hn : hs.Nodup) (hsub : ∀ x ∈ hs, x ∈ s.holds) {k : Nat} (hk : s.issued ≤ k) :
    FInv { s with pc := setf s.pc t q, holds := hs, onLoan := o, issued := k } := by
  refine ⟨hn, ?_, ?_, ?_, ?_, ?_⟩
  · intro u v i hu hv; exact h.sole u v i (hsub _ hu) (hsub _ hv)
  · intro u i hu; have := h.lt u i (hsub _ hu); exact ⟨by dsimp only; omega, this.2⟩
  · intro u i hu
    by_cases e : u = t
    · subst e; simp [setf_self, hq] at hu
    · simp only [setf_ne _ _ e] at hu
      obtain ⟨a, b, c⟩ := h.hand u i hu
      exact ⟨by dsimp only; omega, b, fun v hv => c v (hsub _ hv)⟩
  · intro u v i hu hv
    by_cases e : u = t
    · subst e; simp [setf_self, hq] at hu
    · by_cases e' : v = t
      · subst e'; simp [setf_self, hq] at hv
      · simp only [setf_ne _ _ e] at hu; simp only [setf_ne _ _ e'] at hv; exact h.apart u v i hu hv
  · intro u i hu
    by_cases e : u = t
    · subst e; simp only [setf_self] at hu; rw [hu] at hq; simp [FPc.hand] at hq
    · simp only [setf_ne _ _ e] at hu; exact h.own u i hu

theorem good_ret {b : Buf} {t i : Nat} (h : b.Good) (ht : b.phase t = .out) (hi : (t, i) ∈ b.holds) :
    ∃ b', b.ret t i = some b' ∧ b'.Good ∧ b'.holds = b.holds.erase (t, i) ∧ b'.phase t = .returning ∧
      ∀ u, u ≠ t → b'.phase u = b.phase u := by
  cases b with
  | fixed s =>
    have hp : s.pc t = .idle := fPhase_out.1 ht
    have hi' : (t, i) ∈ s.holds := hi
    refine ⟨.fixed { s with pc := setf s.pc t .unlend, holds := s.holds.erase (t, i) }, ?_, ?_, rfl, ?_, ?_⟩
    · simp [Buf.ret, FSt.ret, hp, hi']
    · exact FInv.quit (o := s.onLoan) (k := s.issued) h rfl (List.Nodup.erase _ (FInv.nodup h))
        (fun x hx => List.mem_of_mem_erase hx) (Nat.le_refl _)
    · simp [Buf.phase, setf_self, fPhase]
    · intro u hu; simp [Buf.phase, setf_ne _ _ hu]
  | ring s =>
    have hp : s.pc t = .idle := rPhase_out.1 ht
    have hi' : (t, i) ∈ s.holds := hi
    obtain ⟨n, h1, h2, hr⟩ := h
    have e : s.next t (.ret i) = .to { s.goto t (.give i) with holds := s.holds.erase (t, i) } := by
      simp [RingConc.St.next, hp, hi']
    refine ⟨.ring { s.goto t (.give i) with holds := s.holds.erase (t, i) }, ?_, ⟨n, h1, h2, .step hr e⟩, rfl, ?_, ?_⟩
    · simp [Buf.ret, e, Buf.ringTo]
    · simp [Buf.phase, RingConc.St.goto, setf_self, rPhase]
    · intro u hu; simp [Buf.phase, RingConc.St.goto, setf_ne _ _ hu]

/-- What an access of a thread inside a function does. -/
def StepOk (b : Buf) (t : Nat) : Ev Buf → Prop
  | .blocked | .ub => False
  | .inside b' => b'.Good ∧ b'.holds = b.holds ∧ ∀ u, b'.phase u = b.phase u
  | .got b' r => b.phase t = .getting ∧ b'.Good ∧ b'.phase t = .out ∧ (∀ u, u ≠ t → b'.phase u = b.phase u) ∧
      match r with
      | none => b'.holds = b.holds
      | some i => b'.holds = (t, i) :: b.holds ∧ ∀ u, (u, i) ∉ b.holds
  | .gave b' => b.phase t = .returning ∧ b'.Good ∧ b'.holds = b.holds ∧ b'.phase t = .out ∧
      ∀ u, u ≠ t → b'.phase u = b.phase u

theorem fixed_step {s : FSt} {t : Nat} (h : FInv s) (ht : fPhase (s.pc t) ≠ .out) :
    StepOk (.fixed s) t (Buf.fixedEv (s.step t)) := by
  unfold FSt.step
  cases hp : s.pc t with
  | idle => rw [hp] at ht; exact absurd rfl ht
  | count =>
    dsimp only
    split
    · refine ⟨by simp [Buf.phase, hp, fPhase], ?_, by simp [Buf.phase, setf_self, fPhase], ?_, rfl⟩
      · exact FInv.quit (o := s.onLoan) (hs := s.holds) h rfl h.nodup (fun _ hx => hx) (Nat.le_succ _)
      · intro u hu; simp [Buf.phase, setf_ne _ _ hu]
    · rename_i hlt
      refine ⟨?_, rfl, ?_⟩
      · refine ⟨h.nodup, h.sole, ?_, ?_, ?_, ?_⟩
        · intro u i hu; have := h.lt u i hu; exact ⟨by dsimp only; omega, this.2⟩
        · intro u i hu
          by_cases e : u = t
          · subst e
            simp only [setf_self, FPc.hand, Option.some.injEq] at hu
            subst hu
            refine ⟨by dsimp only; omega, by dsimp only; omega, fun v hv => ?_⟩
            have := (h.lt v _ hv).1; omega
          · simp only [setf_ne _ _ e] at hu
            obtain ⟨a, b, c⟩ := h.hand u i hu
            exact ⟨by dsimp only; omega, b, c⟩
        · intro u v i hu hv
          by_cases e : u = t
          · by_cases e' : v = t
            · rw [e, e']
            · subst e
              simp only [setf_self, FPc.hand, Option.some.injEq] at hu
              simp only [setf_ne _ _ e'] at hv
              have := (h.hand v i hv).1; omega
          · by_cases e' : v = t
            · subst e'
              simp only [setf_self, FPc.hand, Option.some.injEq] at hv
              simp only [setf_ne _ _ e] at hu
              have := (h.hand u i hu).1; omega
            · simp only [setf_ne _ _ e] at hu; simp only [setf_ne _ _ e'] at hv; exact h.apart u v i hu hv
        · intro u i hu
          by_cases e : u = t
          · subst e; simp [setf_self] at hu
          · simp only [setf_ne _ _ e] at hu; exact h.own u i hu
      · intro u
        by_cases e : u = t
        · subst e; simp [Buf.phase, setf_self, fPhase, hp]
        · simp [Buf.phase, setf_ne _ _ e]
  | reset i =>
    obtain ⟨a, b, c⟩ := h.hand t i (by rw [hp]; rfl)
    simp only [b, if_true]
    refine ⟨?_, rfl, ?_⟩
    · have hand : ∀ u, (setf s.pc t (FPc.lend i) u).hand = (s.pc u).hand := by
        intro u
        by_cases e : u = t
        · subst e; simp [setf_self, FPc.hand, hp]
        · simp [setf_ne _ _ e]
      refine ⟨h.nodup, h.sole, ?_, ?_, ?_, ?_⟩
      · intro u j hu
        have h' := h.lt u j hu
        refine ⟨h'.1, h'.2.1, ?_⟩
        have : j ≠ i := by rintro rfl; exact c u hu
        simp only [setf_ne _ _ this]; exact h'.2.2
      · intro u j hu; rw [hand] at hu; exact h.hand u j hu
      · intro u v j hu hv; rw [hand] at hu hv; exact h.apart u v j hu hv
      · intro u j hu
        by_cases e : u = t
        · subst e
          simp only [setf_self, FPc.lend.injEq] at hu
          subst hu; simp [setf_self]
        · simp only [setf_ne _ _ e] at hu
          have : j ≠ i := by
            rintro rfl
            exact e (h.apart u t j (by rw [hu]; rfl) (by rw [hp]; rfl))
          simp only [setf_ne _ _ this]; exact h.own u j hu
    · intro u
      by_cases e : u = t
      · subst e; simp [Buf.phase, setf_self, fPhase, hp]
      · simp [Buf.phase, setf_ne _ _ e]
  | lend i =>
    obtain ⟨a, b, c⟩ := h.hand t i (by rw [hp]; rfl)
    have hq := FInv.quit (t := t) (q := .idle) (o := s.onLoan + 1) (hs := s.holds) h rfl h.nodup (fun _ hx => hx) (Nat.le_refl _)
    refine ⟨by simp [Buf.phase, hp, fPhase], ?_, by simp [Buf.phase, setf_self, fPhase], ?_, rfl, c⟩
    · refine ⟨List.nodup_cons.2 ⟨c t, h.nodup⟩, ?_, ?_, ?_, hq.apart, hq.own⟩
      · intro u v j hu hv
        simp only [List.mem_cons, Prod.mk.injEq] at hu hv
        rcases hu with ⟨rfl, rfl⟩ | hu <;> rcases hv with ⟨rfl, e⟩ | hv
        · rfl
        · exact absurd hv (c v)
        · subst e; exact absurd hu (c u)
        · exact h.sole u v j hu hv
      · intro u j hu
        simp only [List.mem_cons, Prod.mk.injEq] at hu
        rcases hu with ⟨rfl, rfl⟩ | hu
        · exact ⟨a, b, h.own _ _ hp⟩
        · exact h.lt u j hu
      · intro u j hu
        obtain ⟨a', b', c'⟩ := hq.hand u j hu
        refine ⟨a', b', fun v hv => ?_⟩
        simp only [List.mem_cons, Prod.mk.injEq] at hv
        rcases hv with ⟨rfl, rfl⟩ | hv
        · by_cases e : u = v
          · subst e; simp [setf_self, FPc.hand] at hu
          · simp only [setf_ne _ _ e] at hu
            exact e (h.apart u v j hu (by rw [hp]; rfl))
        · exact c' v hv
    · intro u hu; simp [Buf.phase, setf_ne _ _ hu]
  | unlend =>
    refine ⟨by simp [Buf.phase, hp, fPhase], ?_, rfl, by simp [Buf.phase, setf_self, fPhase], ?_⟩
    · exact FInv.quit (hs := s.holds) h rfl h.nodup (fun _ hx => hx) (Nat.le_refl _)
    · intro u hu; simp [Buf.phase, setf_ne _ _ hu]

theorem ring_step {s : RingConc.St} {t n : Nat} {sp : Bool} (h1 : 1 ≤ n) (h2 : n ≤ 2 ^ 32) (h : RingConc.Reachable n s)
    (ht : rPhase (s.pc t) ≠ .out) : StepOk (.ring s) t (Buf.ringEv (s.pc t) (s.access t sp)) := by
  have hd : s.access t sp ≠ .ub := by
    cases sp
    · exact RingConc.C98_defined h1 h2 h (t := t) .step
    · exact RingConc.C98_defined h1 h2 h (t := t) .spurious
  have hgood : ∀ s', s.access t sp = .to s' → (Buf.ring s').Good := by
    intro s' hs
    refine ⟨n, h1, h2, ?_⟩
    cases sp
    · exact .step (c := .step) h hs
    · exact .step (c := .spurious) h hs
  obtain ⟨A, hA⟩ := h.rel h1 h2 Unit
  revert hd hgood
  unfold RingConc.St.access
  cases hp : s.pc t with
  | idle => rw [hp] at ht; exact absurd rfl ht
  | count =>
    intro _ hgood
    refine ⟨hgood _ rfl, rfl, fun u => ?_⟩
    by_cases e : u = t
    · subst e
      simp only [Buf.phase, RingConc.St.goto, setf_self, hp]
      split <;> rfl
    · simp [Buf.phase, RingConc.St.goto, setf_ne _ _ e]
  | take =>
    dsimp only
    split
    · intro _ hgood; exact ⟨hgood _ rfl, rfl, fun u => rfl⟩
    · intro _ hgood
      refine ⟨hgood _ rfl, rfl, fun u => ?_⟩
      by_cases e : u = t
      · subst e; simp [Buf.phase, RingConc.St.goto, setf_self, hp, rPhase]
      · simp [Buf.phase, RingConc.St.goto, setf_ne _ _ e]
    · intro _ hgood; exact ⟨hgood _ rfl, rfl, fun u => rfl⟩
  | reset o =>
    cases o with
    | none => intro hd; exact absurd rfl hd
    | some i =>
      dsimp only
      split
      · intro _ hgood
        refine ⟨hgood _ rfl, rfl, fun u => ?_⟩
        by_cases e : u = t
        · subst e; simp [Buf.phase, RingConc.St.goto, setf_self, hp, rPhase]
        · simp [Buf.phase, RingConc.St.goto, setf_ne _ _ e]
      · intro hd; exact absurd rfl hd
  | lend i =>
    intro _ hgood
    have hh : s.hand t = some i := by simp [RingConc.St.hand, hp, RingConc.handOf]
    refine ⟨by simp [Buf.phase, hp, rPhase], hgood _ rfl, by simp [Buf.phase, RingConc.St.goto, setf_self, rPhase], ?_, rfl, ?_⟩
    · intro u e; simp [Buf.phase, RingConc.St.goto, setf_ne _ _ e]
    · intro u hu
      have : u = t := hA.sole (.inl hu) (.inr hh)
      subst this
      exact hA.apart _ _ hu hh
  | give i =>
    dsimp only
    split
    · intro _ hgood; exact ⟨hgood _ rfl, rfl, fun u => rfl⟩
    · intro _ hgood
      refine ⟨hgood _ rfl, rfl, fun u => ?_⟩
      by_cases e : u = t
      · subst e; simp [Buf.phase, RingConc.St.goto, setf_self, hp, rPhase]
      · simp [Buf.phase, RingConc.St.goto, setf_ne _ _ e]
    · intro _ hgood; exact ⟨hgood _ rfl, rfl, fun u => rfl⟩
  | unlend =>
    intro _ hgood
    refine ⟨by simp [Buf.phase, hp, rPhase], hgood _ rfl, rfl, by simp [Buf.phase, RingConc.St.goto, setf_self, rPhase], ?_⟩
    intro u e; simp [Buf.phase, RingConc.St.goto, setf_ne _ _ e]

theorem good_step {b : Buf} {t : Nat} {sp : Bool} (h : b.Good) (ht : b.phase t ≠ .out) : StepOk b t (b.step t sp) := by
  cases b with
  | fixed s => exact fixed_step h ht
  | ring s =>
    obtain ⟨n, h1, h2, hr⟩ := h
    exact ring_step h1 h2 hr ht

/-- Who holds a chunk is written in it. -/
theorem good_owner {b : Buf} {t i : Nat} (h : b.Good) (ht : (t, i) ∈ b.holds) : i < b.size ∧ b.owner i = some t := by
  cases b with
  | fixed s => exact (FInv.lt h t i ht).2
  | ring s =>
    obtain ⟨n, h1, h2, hr⟩ := h
    have := RingConc.C98_exclusive h1 h2 hr (t := t) (i := i) (.inl ht)
    exact ⟨by show i < s.size; rw [hr.size_eq]; exact this.2.1, this.2.2.2 ht⟩

end Phosphor.LogBuf
