import Verif.Telnet

/-!
# C128: what the telnet client sends arrives
-/

namespace Mtev.Telnet

variable {σ : Type}

/-! ## Specification: how a client sends -/

/-- IAC is doubled. -/
def double (s : Str) : Str := s.flatMap fun c => if c = 255 then [255, 255] else [c]

/-- What a client sends for a byte, a command, an option message and a suboption (RFC 854, 855): IAC doubled, a carriage return
followed by NUL unless the transmission is binary. -/
def wire (bin : Bool) : Ev → Str
  | .data c => if c = 255 then [255, 255] else if c = 13 ∧ bin = false then [13, 0] else [c]
  | .cmd c => [255, c]
  | .opt v o => [255, v, o]
  | .sub s => [255, 250] ++ double s ++ [255, 240]

/-- What there is to send: the commands the console knows, the four option messages, short suboptions. -/
def Sendable : Ev → Prop
  | .data _ => True
  | .cmd c => c ∈ [236, 237, 238, 239, 242, 243, 244, 245, 246, 247, 248]
  | .opt v _ => 251 ≤ v ∧ v ≤ 254
  | .sub s => s.length ≤ 6

/-- No line mode, and the peer's BINARY option as `bin` says, whatever happens. -/
def Mode (E : Env σ) (bin : Bool) : Prop := ∀ s, E.plain s = !bin ∧ (bin = false → E.line s = false)

/-! ## Byte by byte -/

theorem step_next (E : Env σ) (h : ∀ s, E.plain s = true → E.line s = false) (c : Nat) (next : Option Nat) (r : Rx σ) :
    step E c next r = ((step E c none r).1, false) := by
  have hb : ∀ r : Rx σ, step.byte E c next r = ((step.byte E c none r).1, false) := by
    intro r
    unfold step.byte
    split
    · rfl
    · split
      · rename_i hp
        rw [if_neg (by rw [h _ hp.2]; simp), if_neg (by simp)]
      · rfl
  unfold step
  split
  · split
    · rfl
    · exact hb _
  · exact hb _
  · rfl
  · split <;> rfl
  · split
    · rfl
    · split <;> rfl
  · rfl

theorem telrcv_cons (E : Env σ) (h : ∀ s, E.plain s = true → E.line s = false) (c : Nat) (s : Str) (r : Rx σ) :
    telrcv E (c :: s) r = telrcv E s (step E c none r).1 := by
  cases s with
  | nil => rfl
  | cons d s => simp only [telrcv]; rw [step_next E h]; simp

theorem telrcv_append (E : Env σ) (h : ∀ s, E.plain s = true → E.line s = false) (a b : Str) (r : Rx σ) :
    telrcv E (a ++ b) r = telrcv E b (telrcv E a r) := by
  induction a generalizing r with
  | nil => rfl
  | cons c a ih => rw [List.cons_append, telrcv_cons E h, telrcv_cons E h, ih]

theorem mode_line {E : Env σ} {bin : Bool} (h : Mode E bin) : ∀ s, E.plain s = true → E.line s = false := by
  intro s hp
  have := h s
  rw [hp] at this
  cases bin
  · exact this.2 rfl
  · simp at this

theorem recv_double (E : Env σ) (h : ∀ s, E.plain s = true → E.line s = false) : ∀ (s t : Str) (r : Rx σ), r.st = .sb → r.sub = t →
    t.length + s.length ≤ 8 → telrcv E (double s) r = { r with sub := t ++ s }
  | [], t, r, hs, ht, _ => by simp [double, telrcv, ← ht]
  | c :: s, t, r, hs, ht, hl => by
    simp only [List.length_cons] at hl
    have hd : double (c :: s) = (if c = 255 then [255, 255] else [c]) ++ double s := rfl
    rw [hd, telrcv_append E h]
    have h1 : telrcv E (if c = 255 then [255, 255] else [c]) r = { r with sub := t ++ [c] } := by
      by_cases hc : c = 255
      · rw [if_pos hc]
        simp only [telrcv, step, hs, if_true, Bool.false_eq_true, if_false]
        rw [if_neg (by decide)]
        obtain ⟨st, sub, env, out⟩ := r
        simp only at hs ht
        subst hs ht hc
        simp only [accum]
        rw [if_pos (by omega)]
      · rw [if_neg hc]
        simp only [telrcv, step, hs, hc, if_false, accum, ht]
        rw [if_pos (by omega)]
    rw [h1, recv_double E h s (t ++ [c]) { r with sub := t ++ [c] } hs rfl (by simp; omega)]
    simp

theorem term_short (c : Nat) (s : Str) (h : s.length ≤ 6) : term c s = s := by
  have h1 : accum 255 s = s ++ [255] := by unfold accum; rw [if_pos (by omega)]
  have h2 : accum c (s ++ [255]) = s ++ [255] ++ [c] := by unfold accum; rw [if_pos (by simp; omega)]
  simp only [term, h1, h2]
  simp

theorem recv_item (E : Env σ) (bin : Bool) (hm : Mode E bin) (e : Ev) (he : Sendable e) (r : Rx σ) (hr : r.st = .data) :
    ∃ sub, telrcv E (wire bin e) r = ⟨.data, sub, E.act e r.env, r.out ++ [e]⟩ := by
  have h := mode_line hm
  obtain ⟨st, sub, env, out⟩ := r
  simp only at hr
  subst hr
  cases e with
  | data c =>
    refine ⟨sub, ?_⟩
    simp only [wire]
    by_cases h1 : c = 255
    · subst h1
      simp [telrcv, step, step.byte, gotIac, emit]
    · rw [if_neg h1]
      by_cases h2 : c = 13 ∧ bin = false
      · obtain ⟨rfl, rfl⟩ := h2
        have hp : ∀ s, E.plain s = true := fun s => by simpa using (hm s).1
        have hl : ∀ s, E.line s = false := fun s => (hm s).2 rfl
        simp [telrcv, step, step.byte, emit, hp, hl]
      · rw [if_neg h2]
        have hp : ¬ (c = 13 ∧ E.plain env = true) := by
          rintro ⟨hc, hp⟩
          apply h2
          refine ⟨hc, ?_⟩
          have := (hm env).1
          rw [hp] at this
          cases bin
          · rfl
          · simp at this
        simp only [telrcv, step, step.byte, h1, if_false, hp, emit]
  | cmd c =>
    refine ⟨sub, ?_⟩
    have hc : c ∈ [236, 237, 238, 239, 242, 243, 244, 245, 246, 247, 248] := he
    have hc' := hc
    simp only [List.mem_cons, List.not_mem_nil, or_false] at hc'
    simp only [wire]
    rw [telrcv_cons E h]
    simp only [step, step.byte, if_true, telrcv, gotIac]
    rw [if_neg (by omega), if_neg (by omega), if_neg (by omega), if_pos hc]
    rfl
  | opt v o =>
    refine ⟨sub, ?_⟩
    have hv : 251 ≤ v ∧ v ≤ 254 := he
    simp only [wire]
    rw [telrcv_cons E h]
    simp only [step, step.byte, if_true]
    rw [telrcv_cons E h]
    simp only [step, gotIac]
    rw [if_neg (by omega), if_pos hv]
    simp only [telrcv, step, emit]
  | sub s =>
    refine ⟨s, ?_⟩
    have hs : s.length ≤ 6 := he
    simp only [wire, List.append_assoc]
    rw [telrcv_append E h, telrcv_append E h]
    have h1 : telrcv E [255, 250] ⟨.data, sub, env, out⟩ = ⟨.sb, [], env, out⟩ := by
      rw [telrcv_cons E h]
      simp [telrcv, step, step.byte, gotIac]
    rw [h1, recv_double E h s [] _ rfl rfl (by simp; omega)]
    rw [telrcv_cons E h]
    simp [telrcv, step, emit, term_short 240 s hs]

/-! ## Properties -/

/-- **C128** Whatever a client sends, in any order - bytes, commands, option messages, suboptions up to six bytes - comes out as it
was meant, once, in order and nothing else.  Partial: longer suboptions are cut (see below); no line mode. -/
theorem C128_stream_partial (E : Env σ) (bin : Bool) (hm : Mode E bin) (items : List Ev) (he : ∀ e ∈ items, Sendable e) (r : Rx σ)
    (hr : r.st = .data) :
    (telrcv E (items.flatMap (wire bin)) r).out = r.out ++ items ∧ (telrcv E (items.flatMap (wire bin)) r).st = .data := by
  induction items generalizing r with
  | nil => simp [telrcv, hr]
  | cons e items ih =>
    rw [List.flatMap_cons, telrcv_append E (mode_line hm)]
    obtain ⟨sub, h1⟩ := recv_item E bin hm e (he e (by simp)) r hr
    rw [h1]
    obtain ⟨h2, h3⟩ := ih (fun e he' => he e (by simp [he'])) ⟨.data, sub, E.act e r.env, r.out ++ [e]⟩ rfl
    exact ⟨by rw [h2]; simp, h3⟩

/-- **C128** It does not matter in which portions the bytes are read, for any bytes (no line mode). -/
theorem C128_portions_partial (E : Env σ) (h : ∀ s, E.line s = false) (portions : List Str) (r : Rx σ) :
    portions.foldl (fun r s => telrcv E s r) r = telrcv E portions.flatten r := by
  induction portions generalizing r with
  | nil => rfl
  | cons s l ih => rw [List.foldl_cons, ih, List.flatten_cons, telrcv_append E (fun s _ => h s)]

/-- nothing changes the connection; line mode is on -/
def lineEnv : Env Unit := ⟨fun _ _ => (), fun _ => true, fun _ => true, fun _ => false⟩

/-- nothing changes the connection; line mode is off -/
def charEnv : Env Unit := ⟨fun _ _ => (), fun _ => true, fun _ => false, fun _ => false⟩

/-- **C128** fails in line mode: the end of a line is a line feed if carriage return and line feed are read together, and a carriage
return if they are read one after the other. -/
theorem C128_portions_violated :
    (telrcv lineEnv [13, 10] ⟨.data, [], (), []⟩).out = [.data 10] ∧
    (telrcv lineEnv [10] (telrcv lineEnv [13] ⟨.data, [], (), []⟩)).out = [.data 13] := by decide

/-- **C128** fails for suboptions of more than six bytes: the terminal type `xterm` arrives as `xter`. -/
theorem C128_sub_violated : (telrcv charEnv (wire false (.sub ([24, 0] ++ bytesOf "xterm"))) ⟨.data, [], (), []⟩).out =
    [.sub ([24, 0] ++ bytesOf "xter")] := by decide +kernel

theorem accum_le (c : Nat) (s : Str) (h : s.length ≤ 8) : (accum c s).length ≤ 8 := by
  unfold accum; split
  · simp; omega
  · exact h

theorem term_le (c : Nat) (s : Str) (h : s.length ≤ 8) : 2 ≤ (accum c (accum 255 s)).length ∧ (term c s).length ≤ 6 := by
  have h1 := accum_le 255 s h
  have h2 := accum_le c _ h1
  constructor
  · unfold accum
    split
    · split <;> simp at * <;> omega
    · omega
  · simp only [term, List.length_take]; omega

/-- room for the suboption: bytes kept, and those handed on -/
def Room (r : Rx σ) : Prop := r.sub.length ≤ 8 ∧ ∀ s, Ev.sub s ∈ r.out → s.length ≤ 6

theorem room_emit (E : Env σ) (e : Ev) (r : Rx σ) (h : Room r) (he : ∀ s, e = .sub s → s.length ≤ 6) : Room (emit E e r) := by
  refine ⟨h.1, fun s hs => ?_⟩
  simp only [emit, List.mem_append, List.mem_singleton] at hs
  rcases hs with hs | hs
  · exact h.2 s hs
  · exact he s hs.symm

theorem room_iac (E : Env σ) (c : Nat) (r : Rx σ) (h : Room r) : Room (gotIac E c r) := by
  unfold gotIac
  split
  · exact ⟨by simp, h.2⟩
  · split
    · exact h
    · split
      · exact room_emit E _ r h (by simp)
      · split
        · exact room_emit E _ r h (by simp)
        · exact h

theorem room_byte (E : Env σ) (c : Nat) (next : Option Nat) (r : Rx σ) (h : Room r) : Room (step.byte E c next r).1 := by
  unfold step.byte
  split
  · exact h
  · split
    · split
      · exact room_emit E _ r h (by simp)
      · exact room_emit E _ { r with st := .cr } h (by simp)
    · exact room_emit E _ r h (by simp)

theorem room_step (E : Env σ) (c : Nat) (next : Option Nat) (r : Rx σ) (h : Room r) : Room (step E c next r).1 := by
  unfold step
  split
  · split
    · exact h
    · exact room_byte E c next { r with st := .data } h
  · exact room_byte E c next r h
  · exact room_iac E c r h
  · split
    · exact h
    · exact ⟨accum_le _ _ h.1, h.2⟩
  · split
    · exact room_emit E _ r h (by intro s hs; cases hs; exact (term_le _ _ h.1).2)
    · split
      · exact ⟨accum_le _ _ h.1, h.2⟩
      · apply room_iac
        exact room_emit E _ r h (by intro s hs; cases hs; exact (term_le _ _ h.1).2)
  · exact room_emit E _ r h (by simp)

/-- **C128** Whatever bytes arrive, at most eight bytes of a suboption are kept (65536 are there) and at most six are handed on. -/
theorem C128_bounds (E : Env σ) (s : Str) (r : Rx σ) (h : Room r) : Room (telrcv E s r) := by
  induction hn : s.length using Nat.strong_induction_on generalizing s r with
  | _ n ih =>
    match s with
    | [] => exact h
    | [c] => exact room_step E c none r h
    | c :: d :: s =>
      simp only [telrcv]
      simp only [List.length_cons] at hn
      split
      · exact ih s.length (by omega) s _ (room_step E c _ r h) rfl
      · exact ih (d :: s).length (by simp; omega) (d :: s) _ (room_step E c _ r h) rfl

/-- **C128** In line mode, what is read together is a text of lines: every carriage return with line feed is one line feed.
Partial: the lines have to be read together. -/
theorem C128_lines_partial (E : Env σ) (hm : ∀ s, E.plain s = true ∧ E.line s = true) (lines : List Str)
    (hl : ∀ l ∈ lines, ∀ c ∈ l, c ≠ 255 ∧ c ≠ 13) (r : Rx σ) (hr : r.st = .data) :
    (telrcv E (lines.flatMap (· ++ [13, 10])) r).out = r.out ++ (lines.flatMap (· ++ [10])).map .data := by
  have hone : ∀ (l t : Str) (r : Rx σ), (∀ c ∈ l, c ≠ 255 ∧ c ≠ 13) → r.st = .data →
      ∃ env, telrcv E (l ++ ([13, 10] ++ t)) r = telrcv E t ⟨.data, r.sub, env, r.out ++ (l ++ [10]).map .data⟩ := by
    intro l
    induction l with
    | nil =>
      intro t r _ hr
      obtain ⟨st, sub, env, out⟩ := r
      simp only at hr
      subst hr
      refine ⟨E.act (.data 10) env, ?_⟩
      simp only [List.nil_append, List.cons_append, telrcv, step, step.byte]
      simp [(hm env).1, (hm env).2, emit]
    | cons c l ih =>
      intro t r hc hr
      obtain ⟨st, sub, env, out⟩ := r
      simp only at hr
      subst hr
      have h1 := hc c (by simp)
      obtain ⟨env', h2⟩ := ih t ⟨.data, sub, E.act (.data c) env, out ++ [.data c]⟩ (fun x hx => hc x (by simp [hx])) rfl
      refine ⟨env', ?_⟩
      have hne : ∃ d u, l ++ ([13, 10] ++ t) = d :: u := by cases l <;> simp
      obtain ⟨d, u, hdu⟩ := hne
      rw [List.cons_append, hdu]
      simp only [telrcv, step, step.byte, h1.1, h1.2, if_false, false_and, emit, Bool.false_eq_true]
      rw [← hdu, h2]
      simp
  induction lines generalizing r with
  | nil => simp [telrcv]
  | cons l lines ih =>
    rw [List.flatMap_cons, List.append_assoc]
    obtain ⟨env, h1⟩ := hone l (lines.flatMap (· ++ [13, 10])) r (hl l (by simp)) hr
    have h2 := ih (fun l hl' => hl l (by simp [hl'])) ⟨.data, r.sub, env, r.out ++ (l ++ [10]).map Ev.data⟩ rfl
    rw [h1]
    exact h2.trans (by simp)

/-- **C128** Commands the console does not know, and NOP and GA, are left out without a trace. -/
theorem C128_ignored (E : Env σ) (h : ∀ s, E.line s = false) (c : Nat)
    (hc : c < 236 ∨ c = 240 ∨ c = 241 ∨ c = 249) (s : Str) (r : Rx σ) (hr : r.st = .data) :
    telrcv E ([255, c] ++ s) r = telrcv E s r := by
  obtain ⟨st, sub, env, out⟩ := r
  simp only at hr
  subst hr
  rw [telrcv_append E (fun s _ => h s), telrcv_cons E (fun s _ => h s)]
  simp only [telrcv, step, step.byte, if_true, gotIac]
  rw [if_neg (by omega), if_neg (by omega), if_neg (by omega),
    if_neg (by simp only [List.mem_cons, List.not_mem_nil, or_false]; omega)]

/-- **C128** Outside line mode a carriage return is one, whether NUL, line feed or nothing follows it. -/
theorem C128_return (E : Env σ) (hm : Mode E false) (tail : Str) (ht : tail = [] ∨ tail = [0] ∨ tail = [10]) (r : Rx σ) (hr : r.st = .data) :
    (telrcv E (13 :: tail) r).out = r.out ++ [.data 13] := by
  obtain ⟨st, sub, env, out⟩ := r
  simp only at hr
  subst hr
  rw [telrcv_cons E (mode_line hm)]
  have hp : E.plain env = true := by simpa using (hm env).1
  have hl : E.line env = false := (hm env).2 rfl
  rcases ht with rfl | rfl | rfl <;> simp [telrcv, step, step.byte, emit, hp, hl]

/-- **C128** In line mode a carriage return with NUL is a line feed if the terminal maps them, and a carriage return otherwise. -/
theorem C128_mapped (E : Env σ) (hm : ∀ s, E.plain s = true ∧ E.line s = true) (r : Rx σ) (hr : r.st = .data) :
    (telrcv E [13, 0] r).out = r.out ++ [.data (if E.crnl r.env then 10 else 13)] := by
  obtain ⟨st, sub, env, out⟩ := r
  simp only at hr
  subst hr
  cases hc : E.crnl env <;> simp [telrcv, step, step.byte, emit, (hm _).1, (hm _).2, hc]

/-- **C128** fails with several connections: the state is shared.  One client has sent a single IAC so far; the next byte of another
client is taken for a command and lost. -/
theorem C128_shared_violated : ∃ g : St × (Nat → Str × Unit × List Ev),
    g = feed charEnv 2 [65, 66] (feed charEnv 1 [255] (.data, fun _ => ([], (), []))) ∧ (g.2 2).2.2 = [.data 66] :=
  ⟨_, rfl, by decide⟩

/-- **C128** Several connections do not disturb each other as long as what is read at once are whole items. -/
theorem C128_shared_partial (E : Env σ) (bin : Bool) (hm : Mode E bin) (reads : List (Nat × List Ev))
    (he : ∀ x ∈ reads, ∀ e ∈ x.2, Sendable e) (g : St × (Nat → Str × σ × List Ev)) (hg : g.1 = .data) (i : Nat) :
    ((reads.foldl (fun g x => feed E x.1 (x.2.flatMap (wire bin)) g) g).2 i).2.2 =
      (g.2 i).2.2 ++ (reads.filter (fun x => x.1 = i)).flatMap (·.2) := by
  induction reads generalizing g with
  | nil => simp
  | cons x reads ih =>
    rw [List.foldl_cons]
    obtain ⟨h1, h2⟩ := C128_stream_partial E bin hm x.2 (he x (by simp)) ⟨g.1, (g.2 x.1).1, (g.2 x.1).2.1, (g.2 x.1).2.2⟩ hg
    rw [ih (fun y hy => he y (by simp [hy])) _ h2]
    by_cases hx : x.1 = i
    · subst hx
      simp only [feed, if_true, List.filter_cons, decide_true, List.flatMap_cons]
      rw [h1]; simp
    · simp only [feed, if_neg (Ne.symm hx), List.filter_cons, hx, decide_false, Bool.false_eq_true, if_false]

example : (telrcv charEnv ([Ev.data 13, .data 255, .opt 251 31, .sub [31, 0, 255, 0, 24]].flatMap (wire false)) ⟨.data, [], (), []⟩).out =
    [.data 13, .data 255, .opt 251 31, .sub [31, 0, 255, 0, 24]] := by decide +kernel

example : Mode charEnv false := fun _ => ⟨rfl, fun _ => rfl⟩

end Mtev.Telnet
