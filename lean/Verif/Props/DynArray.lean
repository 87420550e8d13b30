import Verif.Model.DynArray
import Verif.Props.Buffer
import Mathlib.Data.List.Induction
/-
C70: the life of a `dyn_array` and its elements.
-/
namespace Phosphor.Dyn
variable {α : Type}

/-! ### C70 dyn_array constructs and destroys every element exactly once -/

/-- The array owns a block all of whose cells hold objects, with these values. -/
structure Holds (d : Arr) (h : Heap α) (vs : List α) : Prop where
  size : d.size = vs.length
  own : ∃ b, d.base = some b ∧ h.block b = some (vs.map some)

/-- Blocks not yet given out are not in use. -/
def Heap.Ok (h : Heap α) : Prop := ∀ b, h.next ≤ b → h.block b = none

/-- Construction of elements `i, …, i + k - 1` in order. -/
def constructs (b i k : Nat) : List Ev := (List.range' i k).map (.construct b)

/-- Destruction of elements `k - 1, …, 0`. -/
def destroys (b k : Nat) : List Ev := (List.range k).reverse.map (.destroy b)

/-- A block whose first cells hold `vs` and whose other cells are raw. -/
def cellsOf (vs : List α) (raw : Nat) : List (Option α) := vs.map some ++ List.replicate raw none

theorem place_value {h : Heap α} {b k : Nat} {vs : List α} {a : α}
    (hb : h.block b = some (cellsOf vs (k + 1))) :
    place h (some b) vs.length (.value a) =
      .ok () { h with block := setf h.block b (some (cellsOf (vs ++ [a]) k)),
                      log := h.log ++ [.construct b vs.length] } := by
  simp [place, hb, cellsOf, List.replicate_succ]

theorem place_throws {h : Heap α} {b k : Nat} {vs : List α} (hb : h.block b = some (cellsOf vs (k + 1))) :
    place h (some b) vs.length .throws = .throw .element h := by
  simp [place, hb, cellsOf, List.replicate_succ]

theorem destroyLoop_spec {b : Nat} (vs : List α) {h : Heap α} {k : Nat}
    (hb : h.block b = some (cellsOf vs k)) :
    destroyLoop (some b) vs.length h =
      some { h with block := setf h.block b (some (List.replicate (vs.length + k) none)),
                    log := h.log ++ destroys b vs.length } := by
  induction vs using List.reverseRecOn generalizing h k with
  | nil =>
    have : setf h.block b (some (List.replicate k none)) = h.block := by
      funext j; unfold setf; split
      · rename_i e; rw [e, hb]; simp [cellsOf]
      · rfl
    simp [destroyLoop, destroys, this]
  | append_singleton vs a ih =>
    have hd : destroyAt h (some b) vs.length = some { h with
        block := setf h.block b (some (cellsOf vs (k + 1))), log := h.log ++ [.destroy b vs.length] } := by
      simp [destroyAt, hb, cellsOf, List.replicate_succ]
    simp only [List.length_append, List.length_singleton, destroyLoop, hd]
    rw [ih (k := k + 1) (by simp)]
    congr 2
    · funext j; unfold setf; dsimp only; split
      · simp [Nat.add_assoc, Nat.add_comm 1 k]
      · rfl
    · simp [destroys, List.range_succ]

theorem destruct_spec {b : Nat} {vs : List α} {h : Heap α} {k : Nat} (hb : h.block b = some (cellsOf vs k)) :
    destruct ⟨vs.length, some b⟩ h =
      some { h with block := setf h.block b none, log := h.log ++ destroys b vs.length ++ [.free b] } := by
  simp only [destruct, destroyLoop_spec vs hb, deallocate, setf_self]
  congr 2
  funext j; unfold setf; split <;> rfl

/-- C70: the destructor of an array destroys every element exactly once, in reverse order, and
then releases its memory, and touches nothing else. -/
theorem C70_destruct {d : Arr} {h : Heap α} {vs : List α} (hd : Holds d h vs) :
    ∃ b, d.base = some b ∧ destruct d h =
      some { h with block := setf h.block b none, log := h.log ++ destroys b vs.length ++ [.free b] } := by
  obtain ⟨hs, b, hb, hc⟩ := hd
  refine ⟨b, hb, ?_⟩
  have : d = ⟨vs.length, some b⟩ := by cases d; simp_all
  rw [this]
  exact destruct_spec (k := 0) (by rw [hc]; simp [cellsOf])

theorem loop_spec {init : Heap α → Nat → Init α} {b : Nat} (x : Nat → Init α)
    (k : Nat) {h : Heap α} {vs : List α}
    (hb : h.block b = some (cellsOf vs k))
    (hinit : ∀ h' : Heap α, (∀ j, j ≠ b → h'.block j = h.block j) → ∀ i, i < vs.length + k → init h' i = x i)
    (hub : ∀ i, i < vs.length + k → x i ≠ .ub) :
    (∃ new, new.length = k ∧ (∀ j v, new[j]? = some v → x (vs.length + j) = .value v) ∧
      constructLoop init k ⟨vs.length, some b⟩ h = (none, some (⟨vs.length + k, some b⟩,
        { h with block := setf h.block b (some (cellsOf (vs ++ new) 0)),
                 log := h.log ++ constructs b vs.length k }))) ∨
    (∃ new m, k = new.length + m + 1 ∧ (∀ j v, new[j]? = some v → x (vs.length + j) = .value v) ∧
      x (vs.length + new.length) = .throws ∧
      constructLoop init k ⟨vs.length, some b⟩ h = (some .element, some (⟨vs.length + new.length, some b⟩,
        { h with block := setf h.block b (some (cellsOf (vs ++ new) (m + 1))),
                 log := h.log ++ constructs b vs.length new.length }))) := by
  induction k generalizing h vs with
  | zero =>
    left
    refine ⟨[], rfl, by simp, ?_⟩
    have : setf h.block b (some (cellsOf vs 0)) = h.block := by
      funext j; unfold setf; split
      · rename_i e; rw [e, hb]
      · rfl
    simp [constructLoop, constructs, this]
  | succ k ih =>
    have hx := hinit h (fun _ _ => rfl) vs.length (by omega)
    cases hv : x vs.length with
    | ub => exact absurd hv (hub _ (by omega))
    | throws =>
      right
      refine ⟨[], k, by simp, by simp, by simpa using hv, ?_⟩
      have : setf h.block b (some (cellsOf vs (k + 1))) = h.block := by
        funext j; unfold setf; split
        · rename_i e; rw [e, hb]
        · rfl
      simp only [constructLoop, hx, hv, place_throws hb]
      simp [constructs, this]
    | value a =>
      have hp := place_value (a := a) hb
      have hlen : (vs ++ [a]).length = vs.length + 1 := by simp
      simp only [constructLoop, hx, hv, hp]
      have h1 := ih (vs := vs ++ [a])
        (h := { h with block := setf h.block b (some (cellsOf (vs ++ [a]) k)),
                       log := h.log ++ [.construct b vs.length] }) (by simp)
        (fun h' hh i hi => hinit h' (fun j hj => by rw [hh j hj]; exact setf_ne _ _ hj) i (by rw [hlen] at hi; omega))
        (fun i hi => hub i (by rw [hlen] at hi; omega))
      rw [hlen] at h1
      have hset : ∀ y, setf (setf h.block b (some (cellsOf (vs ++ [a]) k))) b y = setf h.block b y := by
        intro y; funext j; unfold setf; split <;> rfl
      have hnew : ∀ (new : List α), (∀ j v, new[j]? = some v → x (vs.length + 1 + j) = .value v) →
          ∀ j v, (a :: new)[j]? = some v → x (vs.length + j) = .value v := by
        intro new hn j v hj
        cases j with
        | zero => simp at hj; subst hj; simpa using hv
        | succ j => have := hn j v (by simpa using hj); rw [← this]; congr 1; omega
      rcases h1 with ⟨new, e1, e2, e3⟩ | ⟨new, m, e1, e2, e3, e4⟩
      · left
        refine ⟨a :: new, by simp [e1], hnew new e2, ?_⟩
        rw [e3]
        simp only [hset]
        simp [constructs, List.range'_succ, Nat.add_assoc, Nat.add_comm 1 k]
      · right
        refine ⟨a :: new, m, by simp; omega, hnew new e2, ?_, ?_⟩
        · rw [← e3]; congr 1; simp; omega
        · rw [e4]
          simp only [hset]
          simp [constructs, List.range'_succ, Nat.add_assoc, Nat.add_comm 1 new.length]

/-- C70: every constructor either makes an array of exactly the requested elements, each
constructed once and in order, or throws, and then it has destroyed every element it constructed,
exactly once and in reverse order, has released its memory and has changed nothing else. It is
never undefined. -/
theorem C70_make (elemSize c : BitVec 64) (newOk : Bool) (init : Heap α → Nat → Init α) (x : Nat → Init α)
    {h : Heap α} (hok : h.Ok)
    (hinit : ∀ h' : Heap α, (∀ j, j ≠ h.next → h'.block j = h.block j) → ∀ i, i < c.toNat → init h' i = x i)
    (hub : ∀ i, i < c.toNat → x i ≠ .ub) :
    (∃ (d : Arr) (h' : Heap α) (vs : List α), make elemSize newOk init c h = .ok d h' ∧ vs.length = c.toNat ∧
      (∀ (i : Nat) v, vs[i]? = some v → x i = .value v) ∧ Holds d h' vs ∧ d.base = some h.next ∧ h'.Ok ∧
      (∀ j, j ≠ h.next → h'.block j = h.block j) ∧
      h'.log = h.log ++ .alloc h.next :: constructs h.next 0 c.toNat) ∨
    (∃ (h' : Heap α) (vs : List α), make elemSize newOk init c h = .throw .element h' ∧ vs.length < c.toNat ∧
      (∀ (i : Nat) v, vs[i]? = some v → x i = .value v) ∧ x vs.length = .throws ∧ h'.block = h.block ∧ h'.Ok ∧
      h'.log = h.log ++ .alloc h.next :: constructs h.next 0 vs.length ++ destroys h.next vs.length ++
        [.free h.next]) ∨
    (make elemSize newOk init c h = .throw .outOfRange h ∧ dynAllocate elemSize c = .throw .outOfRange) ∨
    (make elemSize newOk init c h = .throw .badAlloc h ∧ newOk = false) := by
  have hun : ∀ e, unwind (β := Arr) e ⟨0, none⟩ h = .throw e h := fun e => rfl
  unfold make
  cases ha : dynAllocate elemSize c with
  | throw e =>
    right; right; left
    refine ⟨hun _, ?_⟩
    unfold dynAllocate at ha
    split at ha
    · cases ha; rfl
    · cases ha
  | ub => unfold dynAllocate at ha; split at ha <;> cases ha
  | ok n =>
    cases newOk with
    | false => right; right; right; exact ⟨hun _, rfl⟩
    | true =>
      have key := loop_spec (init := init) (b := h.next) x c.toNat (vs := [])
        (h := { block := setf h.block h.next (some (List.replicate c.toNat none)), next := h.next + 1,
                log := h.log ++ [.alloc h.next] }) (by simp [cellsOf])
        (fun h' hh i hi => hinit h' (fun j hj => by rw [hh j hj]; exact setf_ne _ _ hj) i (by simpa using hi))
        (fun i hi => hub i (by simpa using hi))
      have hset : ∀ y, setf (setf h.block h.next (some (List.replicate c.toNat none))) h.next y =
          setf h.block h.next y := by
        intro y; funext j; unfold setf; split <;> rfl
      simp only [hset, List.length_nil, Nat.zero_add, List.nil_append] at key
      rcases key with ⟨vs, e1, e2, e3⟩ | ⟨vs, m, e1, e2, e3, e4⟩
      · left
        simp only [if_true, e3]
        refine ⟨_, _, vs, rfl, e1, e2, ⟨e1.symm, _, rfl, by simp [cellsOf]⟩, rfl, ?_,
          fun j hj => setf_ne _ _ hj, by simp⟩
        intro j hj
        exact (setf_ne _ _ (by simp at hj; omega)).trans (hok j (by simp at hj; omega))
      · right; left
        have hdes := destruct_spec (b := h.next) (vs := vs) (k := m + 1)
          (h := { block := setf h.block h.next (some (cellsOf vs (m + 1))), next := h.next + 1,
                  log := h.log ++ [.alloc h.next] ++ constructs h.next 0 vs.length }) (by simp)
        have hblk : setf (setf h.block h.next (some (cellsOf vs (m + 1)))) h.next none = h.block := by
          funext j; unfold setf; split
          · rename_i e; rw [e, hok _ (Nat.le_refl _)]
          · rfl
        simp only [hblk] at hdes
        simp only [if_true, e4, unwind, hdes]
        exact ⟨_, vs, rfl, by omega, e2, e3, rfl, fun j hj => hok j (by simp at hj; omega), by simp⟩

/-- The value of an element whose construction may fail. -/
def ofOption : Option α → Init α
  | some a => .value a
  | none => .throws

/-- C70: the array of default-constructed elements, as the buffers use it. If none of the
constructors throws and there is memory, the array is made. -/
theorem C70_default (elemSize c : BitVec 64) (mk : Nat → Option α) {h : Heap α} (hok : h.Ok)
    (hroom : dynAllocate elemSize c ≠ .throw .outOfRange) (hmk : ∀ i, i < c.toNat → (mk i).isSome) :
    ∃ d h' vs, makeDefault elemSize true mk c h = .ok d h' ∧ Holds d h' vs ∧ vs.length = c.toNat ∧
      ∀ (i : Nat) v, vs[i]? = some v → mk i = some v := by
  rcases C70_make elemSize c true (fun _ i => match mk i with | some a => .value a | none => .throws)
    (fun i => ofOption (mk i)) hok (fun h' _ i _ => by cases mk i <;> rfl)
    (fun i _ => by cases mk i <;> simp [ofOption]) with
    ⟨d, h', vs, e1, e2, e3, e4, _⟩ | ⟨h', vs, _, e2, _, e4, _⟩ | ⟨_, e⟩ | ⟨_, e⟩
  · refine ⟨d, h', vs, e1, e4, e2, fun i v hv => ?_⟩
    have := e3 i v hv
    cases hm : mk i <;> rw [hm] at this <;> simp [ofOption] at this
    rw [this]
  · have := hmk vs.length e2
    cases hm : mk vs.length
    · rw [hm] at this; cases this
    · rw [hm] at e4; cases e4
  · exact absurd e hroom
  · cases e

theorem get_holds {d : Arr} {h : Heap α} {vs : List α} (hd : Holds d h vs) {i : Nat} {v : α}
    (hv : vs[i]? = some v) : get d h i = .value v := by
  obtain ⟨hs, b, hb, hc⟩ := hd
  simp [get, hb, hc, hv]

/-- C70: a copy has copies of the elements of the source, in its own memory; the source is
unchanged. If copying an element throws, nothing is left behind. -/
theorem C70_copy (elemSize : BitVec 64) (newOk : Bool) (copy : α → Option α) {src : Arr} {h : Heap α}
    {vs : List α} (hok : h.Ok) (hs : Holds src h vs) (hlen : vs.length < 2 ^ 64) :
    (∃ d h' ws, makeCopy elemSize newOk copy src h = .ok d h' ∧ Holds d h' ws ∧ Holds src h' vs ∧
      d.base ≠ src.base ∧ vs.map copy = ws.map some) ∨
    (∃ e h', makeCopy elemSize newOk copy src h = .throw e h' ∧ h'.block = h.block ∧
      (e = .element → ∃ v ∈ vs, copy v = none)) := by
  obtain ⟨hsz, b, hb, hc⟩ := hs
  have hbn : b ≠ h.next := by
    intro e; rw [e, hok _ (Nat.le_refl _)] at hc; cases hc
  have hcn : (BitVec.ofNat 64 src.size).toNat = vs.length := by
    rw [BitVec.toNat_ofNat, hsz]; exact Nat.mod_eq_of_lt hlen
  rcases C70_make elemSize (BitVec.ofNat 64 src.size) newOk (copyInit copy src)
    (fun i => match vs[i]? with | some v => ofOption (copy v) | none => .ub) hok
    (fun h' hh i hi => by
      rw [hcn] at hi
      have hg : get src h' i = .value vs[i] :=
        get_holds ⟨hsz, b, hb, by rw [hh b hbn]; exact hc⟩ (List.getElem?_eq_getElem hi)
      simp only [copyInit, hg, List.getElem?_eq_getElem hi]
      cases copy vs[i] <;> rfl)
    (fun i hi => by
      rw [hcn] at hi
      simp only [List.getElem?_eq_getElem hi]
      cases copy vs[i] <;> simp [ofOption]) with
    ⟨d, h', ws, e1, e2, e3, e4, e5, _, e6, _⟩ | ⟨h', ws, e1, e2, _, e4, e5, _⟩ | ⟨e, _⟩ | ⟨e, _⟩
  · left
    refine ⟨d, h', ws, e1, e4, ⟨hsz, b, hb, by rw [e6 b hbn]; exact hc⟩, ?_, ?_⟩
    · rw [e5, hb]; intro e; cases e; exact hbn rfl
    · rw [hcn] at e2
      apply List.ext_getElem?
      intro i
      simp only [List.getElem?_map]
      by_cases hi : i < vs.length
      · have hw : i < ws.length := by omega
        have := e3 i ws[i] (List.getElem?_eq_getElem hw)
        rw [List.getElem?_eq_getElem hi] at this
        rw [List.getElem?_eq_getElem hi, List.getElem?_eq_getElem hw]
        replace this : ofOption (copy vs[i]) = .value ws[i] := this
        cases hcp : copy vs[i]
        · rw [hcp] at this; cases this
        · rw [hcp] at this; simp [ofOption] at this; simp [hcp, this]
      · rw [List.getElem?_eq_none (by omega), List.getElem?_eq_none (by omega)]
        rfl
  · right
    refine ⟨_, h', e1, e5, fun _ => ?_⟩
    rw [hcn] at e2
    rw [List.getElem?_eq_getElem e2] at e4
    replace e4 : ofOption (copy vs[ws.length]) = .throws := e4
    refine ⟨vs[ws.length], List.getElem_mem _, ?_⟩
    cases hcp : copy vs[ws.length]
    · rfl
    · rw [hcp] at e4; cases e4
  · exact Or.inr ⟨_, h, e, rfl, fun h => by cases h⟩
  · exact Or.inr ⟨_, h, e, rfl, fun h => by cases h⟩

/-- C70: the fill constructor makes copies of the value, the list constructor copies of the
elements of the list, in order. -/
theorem C70_values (elemSize : BitVec 64) (copy : α → Option α) {h : Heap α} (hok : h.Ok) :
    (∀ (c : BitVec 64) v w, dynAllocate elemSize c ≠ .throw .outOfRange → copy v = some w →
      ∃ d h', makeFill elemSize true copy c v h = .ok d h' ∧ Holds d h' (List.replicate c.toNat w)) ∧
    (∀ l ws : List α, l.length < 2 ^ 64 → dynAllocate elemSize (BitVec.ofNat 64 l.length) ≠ .throw .outOfRange →
      l.map copy = ws.map some → ∃ d h', makeList elemSize true copy l h = .ok d h' ∧ Holds d h' ws) := by
  constructor
  · intro c v w hroom hw
    obtain ⟨d, h', vs, e1, e2, e3, e4⟩ := C70_default elemSize c (fun _ => copy v) hok hroom
      (fun i _ => by rw [hw]; rfl)
    refine ⟨d, h', e1, ?_⟩
    have : vs = List.replicate c.toNat w := by
      refine List.eq_replicate_iff.2 ⟨e3, fun b hb => ?_⟩
      obtain ⟨i, hi⟩ := List.mem_iff_getElem?.1 hb
      have := e4 i b hi
      rw [hw] at this; cases this; rfl
    rw [← this]; exact e2
  · intro l ws hlen hroom hl
    have hcn : (BitVec.ofNat 64 l.length).toNat = l.length := by
      rw [BitVec.toNat_ofNat]; exact Nat.mod_eq_of_lt hlen
    have hat : ∀ i : Nat, (l[i]?).map copy = (ws[i]?).map some := by
      intro i
      have := congrArg (fun z => z[i]?) hl
      simpa using this
    have hll : l.length = ws.length := by have := congrArg List.length hl; simpa using this
    have hinit : ∀ i : Nat, i < l.length → (match l[i]? with
        | some v => (match copy v with | some a => Init.value a | none => .throws)
        | none => .ub) = (match ws[i]? with | some w => Init.value w | none => .ub) := by
      intro i hi
      have := hat i
      rw [List.getElem?_eq_getElem hi, List.getElem?_eq_getElem (by omega)] at this
      rw [List.getElem?_eq_getElem hi, List.getElem?_eq_getElem (by omega)]
      have hc : copy l[i] = some ws[i] := by simpa using this
      simp only [hc]
    rcases C70_make elemSize (BitVec.ofNat 64 l.length) true _
      (fun i : Nat => match ws[i]? with | some w => Init.value w | none => .ub) hok
      (fun h' _ i hi => hinit i (by rw [hcn] at hi; exact hi))
      (fun i hi => by rw [hcn] at hi; rw [List.getElem?_eq_getElem (by omega)]; simp) with
      ⟨d, h', vs, e1, e2, e3, e4, _⟩ | ⟨h', vs, _, e2, _, e4, _⟩ | ⟨_, e⟩ | ⟨_, e⟩
    · refine ⟨d, h', e1, ?_⟩
      have : vs = ws := by
        apply List.ext_getElem?
        intro i
        by_cases hi : i < vs.length
        · have := e3 i vs[i] (List.getElem?_eq_getElem hi)
          rw [List.getElem?_eq_getElem (by omega)] at this
          rw [List.getElem?_eq_getElem hi, List.getElem?_eq_getElem (by omega)]
          have : Init.value ws[i] = Init.value vs[i] := this
          rw [Init.value.inj this]
        · rw [List.getElem?_eq_none (by omega), List.getElem?_eq_none (by omega)]
      rw [← this]; exact e4
    · rw [hcn] at e2
      rw [List.getElem?_eq_getElem (by omega)] at e4; cases e4
    · exact absurd e hroom
    · cases e

/-- C70: over its whole life an array allocates one block, constructs every element once in
order, destroys every element once in reverse order and releases the block; all other memory is as
before. -/
theorem C70_life (elemSize c : BitVec 64) (mk : Nat → Option α) {h : Heap α} (hok : h.Ok)
    (hroom : dynAllocate elemSize c ≠ .throw .outOfRange) (hmk : ∀ i, i < c.toNat → (mk i).isSome) :
    ∃ d h' h'', makeDefault elemSize true mk c h = .ok d h' ∧ destruct d h' = some h'' ∧
      h''.block = h.block ∧
      h''.log = h.log ++ .alloc h.next :: constructs h.next 0 c.toNat ++ destroys h.next c.toNat ++
        [.free h.next] := by
  rcases C70_make elemSize c true (fun _ i => match mk i with | some a => .value a | none => .throws)
    (fun i => ofOption (mk i)) hok (fun h' _ i _ => by cases mk i <;> rfl)
    (fun i _ => by cases mk i <;> simp [ofOption]) with
    ⟨d, h', vs, e1, e2, e3, ⟨hs, b, hb, hc⟩, e5, _, e7, e8⟩ | ⟨h', vs, _, e2, _, e4, _⟩ | ⟨_, e⟩ | ⟨_, e⟩
  · rw [e5] at hb; cases hb
    have := destruct_spec (b := h.next) (vs := vs) (k := 0) (h := h') (by rw [hc]; simp [cellsOf])
    refine ⟨d, h', { h' with
        block := setf h'.block h.next none, log := h'.log ++ destroys h.next vs.length ++ [.free h.next] }, e1, ?_, ?_, ?_⟩
    · have hd : d = ⟨vs.length, some h.next⟩ := by cases d; simp_all
      rw [hd]; exact this
    · funext j
      by_cases hj : j = h.next
      · subst hj; rw [hok _ (Nat.le_refl _)]; exact setf_self _ _ _
      · exact (setf_ne _ _ hj).trans (e7 j hj)
    · simp [e8, e2]
  · have := hmk vs.length e2
    cases hm : mk vs.length
    · rw [hm] at this; cases this
    · rw [hm] at e4; cases e4
  · exact absurd e hroom
  · cases e

/-- C70: `operator[]`, `at`, `front` and `back` give the elements; `at` throws outside. -/
theorem C70_access {d : Arr} {h : Heap α} {vs : List α} (hd : Holds d h vs) (hlen : vs.length < 2 ^ 64) :
    (∀ (i : Nat) (hi : i < vs.length), get d h i = .value vs[i]) ∧
    (∀ i : BitVec 64, «at» d h i = match vs[i.toNat]? with | some v => .ok v | none => .throw .outOfRange) ∧
    (∀ hne : vs ≠ [], front d h = .value (vs.head hne) ∧ back d h = .value (vs.getLast hne)) := by
  have hget : ∀ (i : Nat) (hi : i < vs.length), get d h i = .value vs[i] :=
    fun i hi => get_holds hd (List.getElem?_eq_getElem hi)
  have hcn : (BitVec.ofNat 64 d.size).toNat = vs.length := by
    rw [BitVec.toNat_ofNat, hd.size]; exact Nat.mod_eq_of_lt hlen
  refine ⟨hget, fun i => ?_, fun hne => ?_⟩
  · have hat := C53_at (BitVec.ofNat 64 d.size) i
    rw [hcn] at hat
    unfold «at»
    by_cases hi : i.toNat < vs.length
    · rw [hat.1 hi, List.getElem?_eq_getElem hi]; simp only [hget _ hi]
    · rw [hat.2 (by omega), List.getElem?_eq_none (by omega)]
  · have hpos := List.length_pos_iff.2 hne
    refine ⟨?_, ?_⟩
    · rw [front, hget 0 hpos, List.head_eq_getElem]
    · have : (BitVec.ofNat 64 d.size - 1).toNat = vs.length - 1 := by
        rw [BitVec.toNat_sub, hcn]
        have : (1 : BitVec 64).toNat = 1 := rfl
        rw [this]
        omega
      rw [back, this, hget _ (by omega), List.getLast_eq_getElem]

/-- C70: iterating visits all elements in order, iterating in reverse visits them in reverse order. -/
theorem C70_iterate {d : Arr} {h : Heap α} {vs : List α} (hd : Holds d h vs) :
    readAll d h = some vs ∧ readBack d h d.size = some vs.reverse := by
  have key : ∀ k i, i + k = vs.length → readFrom d h k i = some (vs.drop i) := by
    intro k
    induction k with
    | zero => intro i hi; rw [List.drop_of_length_le (by omega)]; rfl
    | succ k ih =>
      intro i hi
      have hlt : i < vs.length := by omega
      simp only [readFrom, get_holds hd (List.getElem?_eq_getElem hlt), ih (i + 1) (by omega)]
      rw [List.drop_eq_getElem_cons hlt]; rfl
  have key' : ∀ k, k ≤ vs.length → readBack d h k = some (vs.take k).reverse := by
    intro k
    induction k with
    | zero => intro _; simp [readBack]
    | succ k ih =>
      intro hk
      have hlt : k < vs.length := by omega
      simp only [readBack, get_holds hd (List.getElem?_eq_getElem hlt), ih (by omega)]
      rw [List.take_succ_eq_append_getElem hlt, List.reverse_append]
      rfl
  refine ⟨?_, ?_⟩
  · rw [readAll, key d.size 0 (by rw [hd.size]; omega)]; rfl
  · rw [hd.size, key' _ (Nat.le_refl _), List.take_length]

/-- C70: `fill` assigns to every element and to nothing else. -/
theorem C70_fill {d : Arr} {h : Heap α} {vs : List α} (hd : Holds d h vs) (v : α) :
    ∃ h', fill d v h = some h' ∧ Holds d h' (List.replicate vs.length v) ∧
      ∀ j, d.base ≠ some j → h'.block j = h.block j := by
  obtain ⟨hs, b, hb, hc⟩ := hd
  have key : ∀ k (l : List α) (h : Heap α) (i : Nat), l.length = i → h.block b = some ((l ++ (vs.drop i)).map some) →
      i + k = vs.length → ∃ h', fillFrom d v k i h = some h' ∧
        h'.block b = some ((l ++ List.replicate k v).map some) ∧ ∀ j, j ≠ b → h'.block j = h.block j := by
    intro k
    induction k with
    | zero =>
      intro l h i hl hc hi
      refine ⟨h, rfl, ?_, fun _ _ => rfl⟩
      rw [hc, List.drop_of_length_le (by omega)]; rfl
    | succ k ih =>
      intro l h i hl hc hi
      have hlt : i < vs.length := by omega
      rw [List.drop_eq_getElem_cons hlt] at hc
      have ha : assign d h i v = some { h with
          block := setf h.block b (some ((l ++ v :: vs.drop (i + 1)).map some)) } := by
        subst hl
        generalize vs.drop (l.length + 1) = rest at hc ⊢
        generalize vs[l.length] = a at hc
        simp [assign, hb, hc]
      obtain ⟨h', e1, e2, e3⟩ := ih (l ++ [v]) { h with
          block := setf h.block b (some ((l ++ v :: vs.drop (i + 1)).map some)) } (i + 1) (by simp [hl])
        (by simp) (by omega)
      refine ⟨h', ?_, ?_, ?_⟩
      · simp only [fillFrom, ha, e1]
      · rw [e2]; simp [List.replicate_succ]
      · intro j hj; rw [e3 j hj]; exact setf_ne _ _ hj
  obtain ⟨h', e1, e2, e3⟩ := key d.size [] h 0 rfl (by simpa using hc) (by omega)
  refine ⟨h', e1, ⟨by simp [hs], b, hb, ?_⟩, ?_⟩
  · rw [e2, hs]; simp
  · intro j hj; exact e3 j (fun e => hj (by rw [hb, e]))

/-- Outside the claim: `back` of an empty array reads far outside its memory. -/
theorem C70_back_empty {d : Arr} {h : Heap α} (hd : Holds d h []) : back d h = .ub := by
  obtain ⟨hs, b, hb, hc⟩ := hd
  simp [back, get, hb, hc]

/-- The empty heap. -/
def emptyHeap : Heap Nat := ⟨fun _ => none, 0, []⟩

/-- Three elements are made; the third throws; nothing throws. -/
example : (match makeDefault 8 true (fun i => if i = 2 then none else some (10 + i)) 3 emptyHeap with
      | .throw .element h => h.log == [.alloc 0, .construct 0 0, .construct 0 1, .destroy 0 1, .destroy 0 0, .free 0] &&
          h.block 0 == none
      | _ => false) = true ∧
    (match makeDefault 8 true (fun i => some (10 + i)) 3 emptyHeap with
      | .ok d h => readAll d h == some [10, 11, 12] && (match makeCopy 8 true some d h with
        | .ok e h' => readAll e h' == some [10, 11, 12] && e.base == some 1 && (destruct d h').isSome
        | _ => false)
      | _ => false) = true := by
  decide +kernel

end Phosphor.Dyn
