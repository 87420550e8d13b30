import Verif.Spec.Json
/-
A push-down automaton that accepts every legal JSON text. It is only used to show that given
texts are *not* legal: `run_complete` below proves that every text of the grammar in
`Spec/Json` is accepted, so a rejected text is not legal.
-/
namespace Phosphor.Json

inductive Mode
  | value            -- a value must come
  | valueOrEnd       -- just after `[`
  | after            -- a value is complete
  | keyOrEnd         -- just after `{`
  | key              -- after a comma in an object
  | colon            -- after a key
  | str (isKey : Bool)
  | esc (isKey : Bool)
  | hex (isKey : Bool) (left : Nat)
  | lit (rest : Str) -- inside `null`, `true`, `false`
  | minus | zero | int | dot | frac | e | esign | exp
  deriving DecidableEq, Repr

/-- `true` = inside an array, `false` = inside an object. -/
abbrev Stack := List Bool

def isWsB (c : Char) : Bool := c = ' ' || c = '\t' || c = '\n' || c = '\r'

def digitB (c : Char) : Bool := decide (Digit c)

/-- What may follow a complete value. -/
def stepAfter (st : Stack) (c : Char) : Option (Mode × Stack) :=
  if isWsB c then some (.after, st)
  else match st with
    | [] => none
    | true :: st' =>
      if c = ',' then some (.value, true :: st')
      else if c = ']' then some (.after, st') else none
    | false :: st' =>
      if c = ',' then some (.key, false :: st')
      else if c = '}' then some (.after, st') else none

/-- Start of a value. -/
def stepValue (st : Stack) (c : Char) : Option (Mode × Stack) :=
  if c = '"' then some (.str false, st)
  else if c = '[' then some (.valueOrEnd, true :: st)
  else if c = '{' then some (.keyOrEnd, false :: st)
  else if c = '-' then some (.minus, st)
  else if c = '0' then some (.zero, st)
  else if digitB c then some (.int, st)
  else if c = 'n' then some (.lit ['u', 'l', 'l'], st)
  else if c = 't' then some (.lit ['r', 'u', 'e'], st)
  else if c = 'f' then some (.lit ['a', 'l', 's', 'e'], st)
  else none

def step (q : Mode × Stack) (c : Char) : Option (Mode × Stack) :=
  match q with
  | (.value, st) => if isWsB c then some (.value, st) else stepValue st c
  | (.valueOrEnd, st) =>
    if isWsB c then some (.valueOrEnd, st)
    else if c = ']' then some (.after, st.tail)
    else stepValue st c
  | (.after, st) => stepAfter st c
  | (.keyOrEnd, st) =>
    if isWsB c then some (.keyOrEnd, st)
    else if c = '}' then some (.after, st.tail)
    else if c = '"' then some (.str true, st) else none
  | (.key, st) =>
    if isWsB c then some (.key, st) else if c = '"' then some (.str true, st) else none
  | (.colon, st) =>
    if isWsB c then some (.colon, st) else if c = ':' then some (.value, st) else none
  | (.str k, st) =>
    if c = '"' then some (if k then .colon else .after, st)
    else if c = '\\' then some (.esc k, st)
    else if 0x20 ≤ c.toNat then some (.str k, st) else none
  | (.esc k, st) =>
    if c = 'u' then some (.hex k 4, st)
    else if (shortEscape c).isSome then some (.str k, st) else none
  | (.hex k n, st) =>
    if (hexVal c).isSome then some (if n = 1 then .str k else .hex k (n - 1), st) else none
  | (.lit r, st) =>
    match r with
    | [] => none
    | d :: r' => if c = d then some (if r' = [] then .after else .lit r', st) else none
  | (.minus, st) =>
    if c = '0' then some (.zero, st) else if digitB c then some (.int, st) else none
  | (.zero, st) =>
    if c = '.' then some (.dot, st)
    else if c = 'e' ∨ c = 'E' then some (.e, st) else stepAfter st c
  | (.int, st) =>
    if digitB c then some (.int, st)
    else if c = '.' then some (.dot, st)
    else if c = 'e' ∨ c = 'E' then some (.e, st) else stepAfter st c
  | (.dot, st) => if digitB c then some (.frac, st) else none
  | (.frac, st) =>
    if digitB c then some (.frac, st)
    else if c = 'e' ∨ c = 'E' then some (.e, st) else stepAfter st c
  | (.e, st) =>
    if c = '+' ∨ c = '-' then some (.esign, st)
    else if digitB c then some (.exp, st) else none
  | (.esign, st) => if digitB c then some (.exp, st) else none
  | (.exp, st) => if digitB c then some (.exp, st) else stepAfter st c

def run : Option (Mode × Stack) → Str → Option (Mode × Stack)
  | q, [] => q
  | none, _ :: _ => none
  | some q, c :: s => run (step q c) s

/-- Modes in which a value is complete. -/
def Mode.done : Mode → Bool
  | .after | .zero | .int | .frac | .exp => true
  | _ => false

/-- Is the text accepted? -/
def accepts (s : Str) : Bool :=
  match run (some (.value, [])) s with
  | some (q, []) => q.done
  | _ => false

theorem run_none (s : Str) : run none s = none := by cases s <;> rfl

theorem run_append (q : Option (Mode × Stack)) (s t : Str) : run q (s ++ t) = run (run q s) t := by
  induction s generalizing q with
  | nil => cases q <;> simp [run]
  | cons c s ih =>
    cases q with
    | none => simp [run, run_none]
    | some q => simp only [List.cons_append, run]; exact ih _

theorem run_ws {q : Mode × Stack} (hq : ∀ c, isWsB c = true → step q c = some q) {w : Str}
    (hw : Ws w) : run (some q) w = some q := by
  induction w with
  | nil => rfl
  | cons c w ih =>
    have hc : isWsB c = true := by
      have := hw c (List.mem_cons_self ..)
      simpa [isWs, isWsB, or_assoc] using this
    simp only [run, hq c hc]
    exact ih (fun x hx => hw x (List.mem_cons_of_mem _ hx))

theorem run_chars {v t : Str} (h : Chars v t) (k : Bool) (st : Stack) :
    run (some (.str k, st)) t = some (.str k, st) := by
  induction h with
  | nil => rfl
  | plain h1 h2 h3 _ ih => simp only [run, step, h2, h3, h1, if_false, if_true]; exact ih
  | @short e c v t h1 _ ih =>
    have hu : e ≠ 'u' := by rintro rfl; simp [shortEscape] at h1
    have h0 : ('\\' : Char) ≠ '"' := by decide
    simp only [run, step, h0, if_false, if_true, hu, h1, Option.isSome]
    exact ih
  | unicode ha hb hc hd _ ih =>
    have h0 : ('\\' : Char) ≠ '"' := by decide
    simp [run, step, h0, ha, hb, hc, hd]
    exact ih

theorem run_string {v s : Str} (h : IsString v s) (st : Stack) :
    run (some (.value, st)) s = some (.after, st) := by
  obtain ⟨t, rfl, hc⟩ := h
  have h1 : step (.value, st) '"' = some (.str false, st) := by
    simp [step, stepValue, isWsB]
  simp only [run, h1]
  rw [run_append, run_chars hc]
  simp [run, step]

theorem run_key {v s : Str} (h : IsString v s) (st : Stack) (q : Mode)
    (hq : q = .key ∨ q = .keyOrEnd) : run (some (q, st)) s = some (.colon, st) := by
  obtain ⟨t, rfl, hc⟩ := h
  have h1 : step (q, st) '"' = some (.str true, st) := by
    rcases hq with rfl | rfl <;> simp [step, isWsB]
  simp only [run, h1]
  rw [run_append, run_chars hc]
  simp [run, step]

theorem digitB_iff (c : Char) : digitB c = true ↔ Digit c := by simp [digitB]

theorem digit_ne {c d : Char} (h : Digit c) (hd : ¬ Digit d) : c ≠ d := by
  rintro rfl; exact hd h

theorem run_digits {q : Mode} {st : Stack} (hq : ∀ c, Digit c → step (q, st) c = some (q, st))
    {s : Str} (h : ∀ c ∈ s, Digit c) : run (some (q, st)) s = some (q, st) := by
  induction s with
  | nil => rfl
  | cons c s ih =>
    simp only [run, hq c (h c (List.mem_cons_self ..))]
    exact ih (fun x hx => h x (List.mem_cons_of_mem _ hx))

theorem step_int_digit (st : Stack) (c : Char) (h : Digit c) :
    step (.int, st) c = some (.int, st) := by simp [step, (digitB_iff c).2 h]
theorem step_frac_digit (st : Stack) (c : Char) (h : Digit c) :
    step (.frac, st) c = some (.frac, st) := by simp [step, (digitB_iff c).2 h]
theorem step_exp_digit (st : Stack) (c : Char) (h : Digit c) :
    step (.exp, st) c = some (.exp, st) := by simp [step, (digitB_iff c).2 h]

theorem run_int {ip : Str} (h : IsInt ip) (st : Stack) (q : Mode)
    (hq : q = .value ∨ q = .minus ∨ q = .valueOrEnd) :
    run (some (q, st)) ip = some (.zero, st) ∨ run (some (q, st)) ip = some (.int, st) := by
  rcases h with rfl | ⟨hne, hd, hh⟩
  · left
    rcases hq with rfl | rfl | rfl <;> simp [run, step, stepValue, isWsB]
  · right
    cases ip with
    | nil => exact absurd rfl hne
    | cons c s =>
      have hc := hd c (List.mem_cons_self ..)
      have h0 : c ≠ '0' := by simpa using hh
      have hw : isWsB c = false := by
        have : c ≠ ' ' ∧ c ≠ '\t' ∧ c ≠ '\n' ∧ c ≠ '\r' := by
          refine ⟨digit_ne hc ?_, digit_ne hc ?_, digit_ne hc ?_, digit_ne hc ?_⟩ <;> decide
        simp [isWsB, this]
      have hx : c ≠ '"' ∧ c ≠ '[' ∧ c ≠ '{' ∧ c ≠ '-' ∧ c ≠ ']' := by
        refine ⟨digit_ne hc ?_, digit_ne hc ?_, digit_ne hc ?_, digit_ne hc ?_, digit_ne hc ?_⟩ <;>
          decide
      have hs : step (q, st) c = some (.int, st) := by
        rcases hq with rfl | rfl | rfl <;>
          simp [step, stepValue, hw, hx, h0, (digitB_iff c).2 hc]
      simp only [run, hs]
      exact run_digits (step_int_digit st) (fun x hx => hd x (List.mem_cons_of_mem _ hx))

theorem run_frac {f : Rat} {fr : Str} (h : Frac f fr) (st : Stack) (q : Mode)
    (hq : q = .zero ∨ q = .int) :
    ∃ q', run (some (q, st)) fr = some (q', st) ∧ (q' = .zero ∨ q' = .int ∨ q' = .frac) := by
  cases h with
  | none => exact ⟨q, rfl, by rcases hq with h | h <;> simp [h]⟩
  | @some ds hd =>
    have h1 : step (q, st) '.' = Option.some (.dot, st) := by
      have : digitB '.' = false := by decide
      rcases hq with rfl | rfl <;> simp [step, this]
    obtain ⟨hne, hd⟩ := hd
    cases ds with
    | nil => exact absurd rfl hne
    | cons c s =>
      have h2 : step (.dot, st) c = Option.some (.frac, st) := by
        simp [step, (digitB_iff c).2 (hd c (List.mem_cons_self ..))]
      refine ⟨.frac, ?_, by simp⟩
      simp only [run, h1, h2]
      exact run_digits (step_frac_digit st) (fun x hx => hd x (List.mem_cons_of_mem _ hx))

theorem run_expDigits {ds : Str} (h : IsDigits ds) (st : Stack) (q : Mode)
    (hq : q = .e ∨ q = .esign) : run (some (q, st)) ds = some (.exp, st) := by
  obtain ⟨hne, hd⟩ := h
  cases ds with
  | nil => exact absurd rfl hne
  | cons c s =>
    have hc := hd c (List.mem_cons_self ..)
    have hx : c ≠ '+' ∧ c ≠ '-' := ⟨digit_ne hc (by decide), digit_ne hc (by decide)⟩
    have h2 : step (q, st) c = some (.exp, st) := by
      rcases hq with rfl | rfl <;> simp [step, hx, (digitB_iff c).2 hc]
    simp only [run, h2]
    exact run_digits (step_exp_digit st) (fun x hx => hd x (List.mem_cons_of_mem _ hx))

theorem run_exp {x : Int} {ex : Str} (h : Exp x ex) (st : Stack) (q : Mode)
    (hq : q = .zero ∨ q = .int ∨ q = .frac) :
    ∃ q', run (some (q, st)) ex = some (q', st) ∧ q'.done = true := by
  have hstep : ∀ e : Char, (e = 'e' ∨ e = 'E') → step (q, st) e = some (.e, st) := by
    intro e he
    have h1 : digitB 'e' = false := by decide
    have h2 : digitB 'E' = false := by decide
    rcases hq with rfl | rfl | rfl <;> rcases he with rfl | rfl <;> simp [step, h1, h2]
  cases h with
  | none => exact ⟨q, rfl, by rcases hq with rfl | rfl | rfl <;> rfl⟩
  | pos he hd =>
    refine ⟨.exp, ?_, rfl⟩
    simp only [run, hstep _ he]
    exact run_expDigits hd st _ (Or.inl rfl)
  | plus he hd =>
    refine ⟨.exp, ?_, rfl⟩
    have : step (.e, st) '+' = some (.esign, st) := by simp [step]
    simp only [run, hstep _ he, this]
    exact run_expDigits hd st _ (Or.inr rfl)
  | minus he hd =>
    refine ⟨.exp, ?_, rfl⟩
    have : step (.e, st) '-' = some (.esign, st) := by simp [step]
    simp only [run, hstep _ he, this]
    exact run_expDigits hd st _ (Or.inr rfl)

theorem run_number {x : Rat} {s : Str} (h : Number x s) (st : Stack) :
    ∃ q', run (some (.value, st)) s = some (q', st) ∧ q'.done = true := by
  have key : ∀ q s, UNumber q s → ∀ m, m = .value ∨ m = .minus →
      ∃ q', run (some (m, st)) s = some (q', st) ∧ q'.done = true := by
    intro q s hu m hm
    cases hu with
    | mk hi hf he =>
      rw [run_append, run_append]
      rcases run_int hi st m (by rcases hm with h | h <;> simp [h]) with h1 | h1
      · rw [h1]
        obtain ⟨q1, h2, hq1⟩ := run_frac hf st .zero (Or.inl rfl)
        rw [h2]; exact run_exp he st q1 hq1
      · rw [h1]
        obtain ⟨q1, h2, hq1⟩ := run_frac hf st .int (Or.inr rfl)
        rw [h2]; exact run_exp he st q1 hq1
  cases h with
  | pos hu => exact key _ _ hu _ (Or.inl rfl)
  | neg hu =>
    have h1 : step (.value, st) '-' = some (.minus, st) := by
      simp [step, stepValue, isWsB]
    simp only [run, h1]
    exact key _ _ hu _ (Or.inr rfl)

/-- From a completed value, delimiters act as from `after`. -/
theorem step_done {q : Mode} (hq : q.done = true) (st : Stack) {c : Char}
    (hc : isWsB c = true ∨ c = ',' ∨ c = ']' ∨ c = '}') : step (q, st) c = stepAfter st c := by
  have hd : digitB c = false ∧ c ≠ '.' ∧ c ≠ 'e' ∧ c ≠ 'E' := by
    rcases hc with hc | rfl | rfl | rfl
    · simp only [isWsB, Bool.or_eq_true, decide_eq_true_eq] at hc
      rcases hc with ((rfl | rfl) | rfl) | rfl <;> decide
    · decide
    · decide
    · decide
  cases q <;> first | (cases hq; done) | simp [step, hd]

theorem run_done_ws {q : Mode} (hq : q.done = true) (st : Stack) {w : Str} (hw : Ws w) :
    ∃ q', run (some (q, st)) w = some (q', st) ∧ q'.done = true := by
  cases w with
  | nil => exact ⟨q, rfl, hq⟩
  | cons c w =>
    have hc : isWsB c = true := by
      have := hw c (List.mem_cons_self ..)
      simpa [isWs, isWsB, or_assoc] using this
    refine ⟨.after, ?_, rfl⟩
    simp only [run, step_done hq st (Or.inl hc), stepAfter, hc, if_true]
    exact run_ws (fun c hc => by simp [step, stepAfter, hc])
      (fun x hx => hw x (List.mem_cons_of_mem _ hx))

/-- `valueOrEnd` behaves like `value` on texts that do not begin with `]`. -/
theorem value_head {v : JVal} {s : Str} (h : Value v s) :
    ∃ c r, s = c :: r ∧ c ≠ ']' ∧ isWsB c = false := by
  have hnum : ∀ x s, Number x s → ∃ c r, s = c :: r ∧ c ≠ ']' ∧ isWsB c = false := by
    have hu : ∀ x s, UNumber x s → ∃ c r, s = c :: r ∧ c ≠ ']' ∧ isWsB c = false := by
      intro x s h
      cases h with
      | @mk ip fr ex f x hi hf he =>
        have : ∃ c r, ip = c :: r ∧ Digit c := by
          rcases hi with rfl | ⟨hne, hd, _⟩
          · exact ⟨'0', [], rfl, by decide⟩
          · cases ip with
            | nil => exact absurd rfl hne
            | cons c r => exact ⟨c, r, rfl, hd c (List.mem_cons_self ..)⟩
        obtain ⟨c, r, rfl, hc⟩ := this
        refine ⟨c, _, rfl, digit_ne hc (by decide), ?_⟩
        have : c ≠ ' ' ∧ c ≠ '\t' ∧ c ≠ '\n' ∧ c ≠ '\r' := by
          refine ⟨digit_ne hc ?_, digit_ne hc ?_, digit_ne hc ?_, digit_ne hc ?_⟩ <;> decide
        simp [isWsB, this]
    intro x s h
    cases h with
    | pos h => exact hu _ _ h
    | neg h => exact ⟨'-', _, rfl, by decide, by decide⟩
  cases h with
  | null => exact ⟨_, _, rfl, by decide, by decide⟩
  | true => exact ⟨_, _, rfl, by decide, by decide⟩
  | false => exact ⟨_, _, rfl, by decide, by decide⟩
  | num h => exact hnum _ _ h
  | str h => obtain ⟨t, rfl, _⟩ := h; exact ⟨_, _, rfl, by decide, by decide⟩
  | arrNil => exact ⟨_, _, rfl, by decide, by decide⟩
  | arr => exact ⟨_, _, rfl, by decide, by decide⟩
  | objNil => exact ⟨_, _, rfl, by decide, by decide⟩
  | obj => exact ⟨_, _, rfl, by decide, by decide⟩

theorem run_valueOrEnd {v : JVal} {s : Str} (h : Value v s) (st : Stack) :
    run (some (.valueOrEnd, st)) s = run (some (.value, st)) s := by
  obtain ⟨c, r, rfl, h1, h2⟩ := value_head h
  simp [run, step, h1, h2]

mutual
theorem run_value {v : JVal} {s : Str} (h : Value v s) (st : Stack) :
    ∃ q, run (some (.value, st)) s = some (q, st) ∧ q.done = true := by
  match h with
  | .null => exact ⟨.after, by simp [run, step, stepValue, isWsB, digitB, Digit], rfl⟩
  | .true => exact ⟨.after, by simp [run, step, stepValue, isWsB, digitB, Digit], rfl⟩
  | .false => exact ⟨.after, by simp [run, step, stepValue, isWsB, digitB, Digit], rfl⟩
  | .num hn => exact run_number hn st
  | .str hs => exact ⟨.after, run_string hs st, rfl⟩
  | .arrNil hw =>
    refine ⟨.after, ?_, rfl⟩
    have h1 : step (.value, st) '[' = some (.valueOrEnd, Bool.true :: st) := by
      simp [step, stepValue, isWsB]
    simp only [run, h1]
    rw [run_append, run_ws (fun c hc => by simp [step, hc]) hw]
    simp [run, step, isWsB]
  | .arr he =>
    have h1 : step (.value, st) '[' = some (.valueOrEnd, Bool.true :: st) := by
      simp [step, stepValue, isWsB]
    simp only [run, h1]
    obtain ⟨q, hq, hd⟩ := run_elements he st .valueOrEnd (Or.inr rfl)
    rw [run_append, hq]
    refine ⟨.after, ?_, rfl⟩
    simp only [run, step_done hd _ (Or.inr (Or.inr (Or.inl rfl)))]
    simp [stepAfter, isWsB]
  | .objNil hw =>
    refine ⟨.after, ?_, rfl⟩
    have h1 : step (.value, st) '{' = some (.keyOrEnd, Bool.false :: st) := by
      simp [step, stepValue, isWsB]
    simp only [run, h1]
    rw [run_append, run_ws (fun c hc => by simp [step, hc]) hw]
    simp [run, step, isWsB]
  | .obj hm =>
    have h1 : step (.value, st) '{' = some (.keyOrEnd, Bool.false :: st) := by
      simp [step, stepValue, isWsB]
    simp only [run, h1]
    obtain ⟨q, hq, hd⟩ := run_members hm st .keyOrEnd (Or.inr rfl)
    rw [run_append, hq]
    refine ⟨.after, ?_, rfl⟩
    simp only [run, step_done hd _ (Or.inr (Or.inr (Or.inr rfl)))]
    simp [stepAfter, isWsB]
theorem run_elements {vs : List JVal} {s : Str} (h : Elements vs s) (st : Stack) (m : Mode)
    (hm : m = .value ∨ m = .valueOrEnd) :
    ∃ q, run (some (m, Bool.true :: st)) s = some (q, Bool.true :: st) ∧ q.done = true := by
  have hws : ∀ w, Ws w → run (some (m, Bool.true :: st)) w = some (m, Bool.true :: st) := by
    intro w hw
    rcases hm with rfl | rfl <;> exact run_ws (fun c hc => by simp [step, hc]) hw
  match h with
  | .one hw hv hw' =>
    rw [run_append, run_append, hws _ hw]
    obtain ⟨q, hq, hd⟩ := run_value hv (Bool.true :: st)
    have hmv := run_valueOrEnd hv (Bool.true :: st)
    rw [hq] at hmv
    rw [show run (some (m, Bool.true :: st)) _ = some (q, Bool.true :: st) from by
      rcases hm with rfl | rfl <;> assumption]
    exact run_done_ws hd _ hw'
  | .cons hw hv hw' he =>
    rw [run_append, run_append, run_append, hws _ hw]
    obtain ⟨q, hq, hd⟩ := run_value hv (Bool.true :: st)
    have hmv := run_valueOrEnd hv (Bool.true :: st)
    rw [hq] at hmv
    rw [show run (some (m, Bool.true :: st)) _ = some (q, Bool.true :: st) from by
      rcases hm with rfl | rfl <;> assumption]
    obtain ⟨q', hq', hd'⟩ := run_done_ws hd (Bool.true :: st) hw'
    rw [hq']
    simp only [run, step_done hd' _ (Or.inr (Or.inl rfl))]
    have : stepAfter (Bool.true :: st) ',' = some (.value, Bool.true :: st) := by
      simp [stepAfter, isWsB]
    rw [this]
    exact run_elements he st .value (Or.inl rfl)
theorem run_members {ms : List (Str × JVal)} {s : Str} (h : Members ms s) (st : Stack) (m : Mode)
    (hm : m = .key ∨ m = .keyOrEnd) :
    ∃ q, run (some (m, Bool.false :: st)) s = some (q, Bool.false :: st) ∧ q.done = true := by
  match h with
  | .one hb => exact run_member hb st m hm
  | .cons hb ht =>
    obtain ⟨q, hq, hd⟩ := run_member hb st m hm
    rw [run_append, hq]
    simp only [run, step_done hd _ (Or.inr (Or.inl rfl))]
    have : stepAfter (Bool.false :: st) ',' = some (.key, Bool.false :: st) := by
      simp [stepAfter, isWsB]
    rw [this]
    exact run_members ht st .key (Or.inl rfl)
theorem run_member {b : Str × JVal} {s : Str} (h : Member b s) (st : Stack) (m : Mode)
    (hm : m = .key ∨ m = .keyOrEnd) :
    ∃ q, run (some (m, Bool.false :: st)) s = some (q, Bool.false :: st) ∧ q.done = true := by
  match h with
  | .mk h1 hk h2 h3 hv h4 =>
    have hws : ∀ w, Ws w → run (some (m, Bool.false :: st)) w = some (m, Bool.false :: st) := by
      intro w hw
      rcases hm with rfl | rfl <;> exact run_ws (fun c hc => by simp [step, hc]) hw
    rw [run_append, run_append, run_append, hws _ h1, run_key hk _ m hm,
      run_ws (fun c hc => by simp [step, hc]) h2]
    have : step (.colon, Bool.false :: st) ':' = some (.value, Bool.false :: st) := by
      simp [step, isWsB]
    simp only [run, this]
    rw [run_append, run_append, run_ws (fun c hc => by simp [step, hc]) h3]
    obtain ⟨q, hq, hd⟩ := run_value hv (Bool.false :: st)
    rw [hq]
    exact run_done_ws hd _ h4
end

/-- Every legal JSON text is accepted. -/
theorem accepts_of_legal {s : Str} (h : Legal s) : accepts s = true := by
  obtain ⟨v, w, t, w', hw, hv, hw', rfl⟩ := h
  unfold accepts
  rw [run_append, run_append, run_ws (fun c hc => by simp [step, hc]) hw]
  obtain ⟨q, hq, hd⟩ := run_value hv []
  rw [hq]
  obtain ⟨q', hq', hd'⟩ := run_done_ws hd [] hw'
  rw [hq']
  exact hd'

theorem not_legal {s : Str} (h : accepts s = false) : ¬ Legal s := by
  intro hl; rw [accepts_of_legal hl] at h; cases h

end Phosphor.Json
