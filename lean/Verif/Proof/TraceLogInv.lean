import Verif.Model.TraceLog
/-
Control invariant of the TraceLog model: locks, registration, and which buffer is in use.
-/
namespace Phosphor.TLog

attribute [simp, grind =] finishing

variable {ε : Type}

def Pc.holdsMutex : Pc ε → Bool
  | .compare _ _ | .regBody _ | .deregBody | .release | .held _ _ => true
  | _ => false

def Pc.holdsSlave : Pc ε → Bool
  | .checkInit _ | .checkChunk _ | .recheck _ | .retLoad _ | .retDo _ _ | .getCheck _ | .getNull _
  | .getLoad _ | .getDo _ _ | .getWait _ _ | .failed _ | .failUnlock _ _ | .store _ | .unlock => true
  | _ => false

def Pc.mastering : Pc ε → Option Nat
  | .held (.evictClear u _ _) _ | .held (.evictUnlock u _ _) _ => some u
  | _ => none

def Pc.pending : Pc ε → List Nat
  | .held (.evict rest _) _ => rest
  | .held (.evictClear u rest _) _ => u :: rest
  | .held (.evictUnlock _ rest _) _ => rest
  | _ => []

def Pc.pastInit : Pc ε → Bool
  | .checkChunk _ | .recheck _ | .retLoad _ | .retDo _ _ | .getCheck _ | .getNull _
  | .getLoad _ | .getDo _ _ | .getWait _ _ | .failed _ | .store _ => true
  | _ => false

/-- The thread saw `enabled` while holding its chunk lock and acts on it. -/
def Pc.committed : Pc ε → Bool
  | .retLoad _ | .retDo _ _ | .getCheck _ | .getNull _
  | .getLoad _ | .getDo _ _ | .getWait _ _ | .failed _ | .store _ => true
  | _ => false

def Pc.noChunk : Pc ε → Bool
  | .getCheck _ | .getNull _ | .getLoad _ | .getDo _ _ | .getWait _ _ | .failed _ => true
  | _ => false

def Pc.needChunk : Pc ε → Bool
  | .retLoad _ | .retDo _ _ | .store _ => true
  | _ => false

/-- Buffer pointers held in registers, and the buffer found full. -/
def Pc.bufPtr : Pc ε → Option Nat
  | .retDo _ p | .getDo _ p | .getWait _ p | .failed (some p) => some p
  | _ => none

def Pc.needsBuffer : Pc ε → Bool
  | .held (.evict _ _) _ | .held (.evictClear _ _ _) _ | .held (.evictUnlock _ _ _) _
  | .held .startEnable _ => true
  | _ => false

def Pc.isOff : Pc ε → Bool
  | .held (.evict _ _) _ | .held (.evictClear _ _ _) _ | .held (.evictUnlock _ _ _) _
  | .held (.startCreate _) _ | .held .startEnable _ => true
  | .held .user st => decide (finishing st ≠ 0)
  | _ => false

/-- How many `finishStart` frames there may be. -/
def Pc.stackOk : Pc ε → Bool
  | .held (.startCreate _) st | .held .startEnable st => decide (finishing st = 0)
  | .held _ st => decide (finishing st ≤ 1)
  | _ => true

def Pc.isEnable : Pc ε → Bool
  | .held .startEnable _ => true
  | _ => false

/-- The generation remembered for `maybe_stop`, with the buffer found full. -/
def Pc.gen : Pc ε → Option (Option Nat × Nat)
  | .failUnlock f g | .tryMutex f g | .compare f g => some (f, g)
  | _ => none

def Pc.failedNone : Pc ε → Bool
  | .failed none => true
  | _ => false

/-- The tenants still to be evicted by the owner of the mutex. -/
def St.pend (s : St ε) : List Nat :=
  match s.owner with
  | none => []
  | some o => (s.pc o).pending

/-- The tenant whose master lock the owner of the mutex holds. -/
def St.mastered (s : St ε) : Option Nat :=
  match s.owner with
  | none => none
  | some o => (s.pc o).mastering

structure Ctl (s : St ε) : Prop where
  own : ∀ t, s.owner = some t ↔ (s.pc t).holdsMutex = true
  slave : ∀ t, (s.tenant t).lock = .slaveLocked ↔ (s.pc t).holdsSlave = true
  master : ∀ u, (s.tenant u).lock = .masterLocked ↔ s.mastered = some u
  reg : ∀ t, t ∈ s.registered ↔ (s.tenant t).initialised = true
  nodup : s.registered.Nodup
  pastInit : ∀ t, (s.pc t).pastInit = true → (s.tenant t).initialised = true
  chunkInit : ∀ t, (s.tenant t).chunk ≠ none → (s.tenant t).initialised = true
  comm : ∀ t, (s.tenant t).chunk ≠ none ∨ (s.pc t).committed = true →
    s.enabled = true ∨ t ∈ s.pend
  noChunk : ∀ t, (s.pc t).noChunk = true → (s.tenant t).chunk = none
  needChunk : ∀ t, (s.pc t).needChunk = true → (s.tenant t).chunk ≠ none
  ptr : ∀ t p, (s.pc t).bufPtr = some p → s.buffer = some p
  hasBuf : s.enabled = true → s.buffer ≠ none
  hasBuf' : ∀ t, (s.pc t).needsBuffer = true → s.buffer ≠ none
  off : ∀ t, (s.pc t).isOff = true → s.enabled = false
  stack : ∀ t, (s.pc t).stackOk = true
  status : ∀ b, s.status b = .inLog ↔ s.buffer = some b
  fresh : ∀ b, s.status b = .unborn ↔ s.nextBuf ≤ b
  last : ∀ b, s.buffer = some b → b + 1 = s.nextBuf
  gen : s.generation = s.nextBuf
  chunkBuf : ∀ t b i, (s.tenant t).chunk = some (b, i) → s.buffer = some b
  failedNone : ∀ t, (s.pc t).failedNone = true → s.enabled = false
  gLe : ∀ t f g, (s.pc t).gen = some (f, g) → g ≤ s.generation
  gFull : ∀ t p g, (s.pc t).gen = some (some p, g) → g = p + 1
  gNone : ∀ t g, (s.pc t).gen = some (none, g) → g = s.generation → s.enabled = false
  gEnable : ∀ t f g o, (s.pc t).gen = some (f, g) → (s.pc o).isEnable = true → g < s.generation

theorem Ctl.init : Ctl (St.init : St ε) := by
  constructor <;> simp [St.init, Pc.holdsMutex, Pc.holdsSlave, Pc.pastInit,
    Pc.committed, Pc.noChunk, Pc.needChunk, Pc.bufPtr, Pc.needsBuffer, Pc.isOff, Pc.stackOk, Pc.gen,
    Pc.failedNone, St.pend, St.mastered]

/-- All classifications of a program counter given by an equation. -/
macro "classify" h:ident : tactic => `(tactic| (
  have c1 := congrArg Pc.holdsMutex $h
  have c2 := congrArg Pc.holdsSlave $h
  have c3 := congrArg Pc.mastering $h
  have c4 := congrArg Pc.pending $h
  have c5 := congrArg Pc.pastInit $h
  have c6 := congrArg Pc.committed $h
  have c7 := congrArg Pc.noChunk $h
  have c8 := congrArg Pc.needChunk $h
  have c9 := congrArg Pc.bufPtr $h
  have c10 := congrArg Pc.needsBuffer $h
  have c11 := congrArg Pc.isOff $h
  have c12 := congrArg Pc.stackOk $h
  have c13 := congrArg Pc.isEnable $h
  have c14 := congrArg Pc.gen $h
  have c15 := congrArg Pc.failedNone $h
  conv at c1 => rhs; simp only [Pc.holdsMutex]
  conv at c2 => rhs; simp only [Pc.holdsSlave]
  conv at c3 => rhs; simp only [Pc.mastering]
  conv at c4 => rhs; simp only [Pc.pending]
  conv at c5 => rhs; simp only [Pc.pastInit]
  conv at c6 => rhs; simp only [Pc.committed]
  conv at c7 => rhs; simp only [Pc.noChunk]
  conv at c8 => rhs; simp only [Pc.needChunk]
  conv at c9 => rhs; simp only [Pc.bufPtr]
  conv at c10 => rhs; simp only [Pc.needsBuffer]
  conv at c11 => rhs; simp only [Pc.isOff]
  conv at c12 => rhs; simp only [Pc.stackOk]
  conv at c13 => rhs; simp only [Pc.isEnable]
  conv at c14 => rhs; simp only [Pc.gen]
  conv at c15 => rhs; simp only [Pc.failedNone]))

theorem Pc.isEnable_spec (p : Pc ε) (h : p.isEnable = true) :
    p.holdsMutex = true ∧ p.pending = [] ∧ p.isOff = true ∧ p.mastering = none ∧
    p.needsBuffer = true := by
  unfold Pc.isEnable at h; split at h <;> simp_all [holdsMutex, pending, isOff, mastering, needsBuffer]

theorem Pc.isOff_spec (p : Pc ε) (h : p.isOff = true) : p.holdsMutex = true := by
  unfold Pc.isOff at h; split at h <;> simp_all [holdsMutex]

theorem Pc.needsBuffer_spec (p : Pc ε) (h : p.needsBuffer = true) :
    p.holdsMutex = true ∧ p.isOff = true := by
  unfold Pc.needsBuffer at h; split at h <;> simp_all [holdsMutex, isOff]

theorem Pc.committed_spec (p : Pc ε) (h : p.committed = true) :
    p.holdsSlave = true ∧ p.pastInit = true := by
  unfold Pc.committed at h; split at h <;> simp_all [holdsSlave, pastInit]

theorem Pc.failedNone_spec (p : Pc ε) (h : p.failedNone = true) : p.committed = true := by
  unfold Pc.failedNone at h; split at h <;> simp_all [committed]

theorem Pc.bufPtr_spec (p : Pc ε) (b : Nat) (h : p.bufPtr = some b) : p.committed = true := by
  unfold Pc.bufPtr at h; split at h <;> simp_all [committed]

theorem Pc.pastInit_spec (p : Pc ε) (h : p.pastInit = true) : p.holdsSlave = true := by
  unfold Pc.pastInit at h; split at h <;> simp_all [holdsSlave]

theorem Pc.noChunk_spec (p : Pc ε) (h : p.noChunk = true) : p.committed = true := by
  unfold Pc.noChunk at h; split at h <;> simp_all [committed]

theorem Pc.needChunk_spec (p : Pc ε) (h : p.needChunk = true) : p.committed = true := by
  unfold Pc.needChunk at h; split at h <;> simp_all [committed]

/-- Proves that a step preserves `Ctl`: `hp` gives the program counter before, `q` the one after. -/
macro "ctl" s:ident h:ident hp:ident q:term : tactic => `(tactic| (
  generalize hq : $q = q
  replace hq := hq.symm
  classify $hp
  classify hq
  have k1 := @Pc.isEnable_spec
  have k2 := @Pc.isOff_spec
  have k3 := @Pc.needsBuffer_spec
  have k4 := @Pc.committed_spec
  have k5 := @Pc.failedNone_spec
  have k6 := @Pc.bufPtr_spec
  have k7 := @Pc.pastInit_spec
  have k8 := @Pc.noChunk_spec
  have k9 := @Pc.needChunk_spec
  obtain ⟨h1,h2,h3,h4,h5,h6,h7,h8,h9,h10,h11,h12,h13,h14,h15,h16,h17,h18,h19,h20,h21,h22,h23,h24,h25⟩ := $h
  clear $hp hq
  simp only [St.pend, St.mastered] at h3 h8
  rcases hown : St.owner $s with _ | o <;> simp only [hown] at h1 h3 h8 <;> constructor
  all_goals simp only [St.goto, St.setLock, St.setChunk, St.setBuf, St.loaned, St.recorded, setf, St.pend,
    St.mastered, St.beginStop, St.createBuffer, St.enable, St.retrieve, hown]
  all_goals first | assumption | grind))

end Phosphor.TLog
