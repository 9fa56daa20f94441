import Verif.Zipkin

/-!
# C130: spans are encoded in full or not at all
-/

namespace Mtev.Zipkin

/-! ## Specification: the Thrift binary protocol and the fields of a span -/

/-- a number in `n` bytes, most significant first -/
def num : Nat → Int → Str
  | 0, _ => []
  | n + 1, v => num n (v / 256) ++ [(v % 256).toNat]

/-- text: its length in four bytes, then the text -/
def tString (s : Str) : Str := num 4 s.length ++ s

/-- a field: type, number, contents -/
def tField (type : Nat) (id : Int) (contents : Str) : Str := [type] ++ num 2 id ++ contents

/-- a structure: the fields, then 0 -/
def tStruct (fields : List Str) : Str := fields.flatten ++ [0]

/-- a list of structures (type 12): type, number, elements -/
def tList (elements : List Str) : Str := [12] ++ num 4 elements.length ++ elements.flatten

/-- a field that may be missing -/
def opt {α : Type} (o : Option α) (f : α → Str) : List Str := (o.map f).toList

/-- Endpoint: 1 ipv4 (i32), 2 port (i16), 3 service name (string). -/
def endpointBytes (e : Endpoint) : Str :=
  tStruct [tField 8 1 (num 4 e.ipv4), tField 6 2 (num 2 e.port), tField 11 3 (tString e.service)]

/-- Annotation: 1 timestamp (i64), 2 value (string), 3 host (struct). -/
def annotationBytes (a : Annotation) : Str :=
  tStruct ([tField 10 1 (num 8 a.timestamp), tField 11 2 (tString a.value)] ++ opt a.host fun e => tField 12 3 (endpointBytes e))

/-- BinaryAnnotation: 1 key (string), 2 value (string), 3 type (i32), 4 host (struct). -/
def binaryBytes (a : BinAnnotation) : Str :=
  tStruct ([tField 11 1 (tString a.key), tField 11 2 (tString a.value), tField 8 3 (num 4 a.type)] ++
    opt a.host fun e => tField 12 4 (endpointBytes e))

/-- Span: 1 trace (i64), 3 name (string), 4 id (i64), 5 parent (i64), 6 annotations (list), 8 binary annotations (list), 9 debug
(bool), 10 timestamp (i64), 11 duration (i64); what is missing, empty or 0 is left out. -/
def spanBytes (v : Span) : Str :=
  tStruct ([tField 10 1 (num 8 v.trace), tField 11 3 (tString v.name), tField 10 4 (num 8 v.id)] ++
    (opt v.parent fun p => tField 10 5 (num 8 p)) ++
    (if v.annotations = [] then [] else [tField 15 6 (tList (v.annotations.map annotationBytes))]) ++
    (if v.binary = [] then [] else [tField 15 8 (tList (v.binary.map binaryBytes))]) ++
    (opt v.debug fun d => tField 2 9 [if d then 1 else 0]) ++
    (if v.timestamp = 0 then [] else [tField 10 10 (num 8 v.timestamp)]) ++
    (if v.duration = 0 then [] else [tField 10 11 (num 8 v.duration)]))

/-- the list of spans -/
def spansBytes (vs : List Span) : Str := tList (vs.map spanBytes)

/-- a text of less than 2^31 bytes -/
def Short (s : Str) : Prop := s.length < 2 ^ 31

instance (s : Str) : Decidable (Short s) := inferInstanceAs (Decidable (s.length < 2 ^ 31))

/-- all texts of a span are below 2^31 bytes -/
def Fits (v : Span) : Prop :=
  Short v.name ∧ (∀ a ∈ v.annotations, Short a.value ∧ ∀ e ∈ a.host, Short e.service) ∧
  (∀ a ∈ v.binary, Short a.key ∧ ∀ e ∈ a.host, Short e.service)

/-! ## The encoders write what the protocol says -/

theorem be16_num (v : Int) : be16 v = num 2 v := by simp [be16, num]

theorem be32_num (v : Int) : be32 v = num 4 v := by
  simp only [be32, num, List.nil_append, List.cons_append, List.cons.injEq, and_true]
  omega

theorem be64_num (v : Int) : be64 v = num 8 v := by
  simp only [be64, num, List.nil_append, List.cons_append, List.cons.injEq, and_true]
  omega

theorem forall2_append {fs gs : List F} {es ds : List Str} (h1 : Goods fs es) (h2 : Goods gs ds) : Goods (fs ++ gs) (es ++ ds) := by
  induction h1 with
  | nil => exact h2
  | cons h _ ih => exact List.Forall₂.cons h ih

theorem zero_good : Good zero [] := fun b off len hl => by
  obtain ⟨b', h1, h2, h3⟩ := zero_writes b off len hl
  exact ⟨b', h1, h2, fun _ => h3 (by omega)⟩

theorem string_good (s : Str) (h : Short s) : Good (zeString s) (tString s) := by
  have := string_writes s h
  rw [be32_num] at this
  exact Writes.good (by rw [show (tString s).length = 4 + s.length by simp [tString, num]; omega]; exact this)

theorem binary_good (s : Str) : Good (zeBinary s) (tString s) := by
  have := binary_writes s
  rw [be32_num] at this
  exact Writes.good (by rw [show (tString s).length = 4 + s.length by simp [tString, num]; omega]; exact this)

theorem i16_good (v : Int) : Good (zeI16 v) (num 2 v) := by
  rw [← be16_num]; exact (fixed_writes _ (by simp [be16])).good

theorem i32_good (v : Int) : Good (zeI32 v) (num 4 v) := by
  rw [← be32_num]; exact (fixed_writes _ (by simp [be32])).good

theorem i64_good (v : Int) : Good (zeI64 v) (num 8 v) := by
  rw [← be64_num]; exact (fixed_writes _ (by simp [be64])).good

/-- steps whose texts together are `e` -/
def Steps (fs : List F) (e : Str) : Prop := ∃ es, Goods fs es ∧ es.flatten = e

theorem Steps.append {fs gs : List F} {e d : Str} (h1 : Steps fs e) (h2 : Steps gs d) : Steps (fs ++ gs) (e ++ d) := by
  obtain ⟨es, a1, a2⟩ := h1
  obtain ⟨ds, b1, b2⟩ := h2
  exact ⟨es ++ ds, forall2_append a1 b1, by simp [a2, b2]⟩

theorem Steps.nil : Steps [] [] := ⟨[], List.Forall₂.nil, rfl⟩

theorem Steps.one {f : F} {e : Str} (h : Good f e) : Steps [f] e := ⟨[e], List.Forall₂.cons h List.Forall₂.nil, by simp⟩

theorem Steps.seq {fs : List F} {e : Str} (h : Steps fs e) : Good (seq fs) e := by
  obtain ⟨es, a1, a2⟩ := h
  rw [← a2]; exact seq_good fs es a1

theorem steps_field (ty : Nat) (id : Int) (f : F) (e : Str) (h : Good f e) : Steps (field ty id f) (tField ty id e) := by
  have h1 : Good (zeFieldBegin ty id) ([ty] ++ num 2 id) := by
    rw [← be16_num]; exact (fieldBegin_writes ty id).good
  have := ((Steps.one h1).append (Steps.one h)).append (Steps.one zero_good)
  rw [List.append_nil] at this
  exact this

theorem stop_good : Good zeFieldStop [0] := (fixed_writes [0] (by simp)).good

/-- a structure: nothing, the fields, the end mark, nothing -/
theorem steps_struct {fs : List F} {es : List Str} (h : Steps fs es.flatten) : Steps ([zero] ++ fs ++ [zeFieldStop, zero]) (tStruct es) := by
  have := ((Steps.one zero_good).append h).append ((Steps.one stop_good).append (Steps.one zero_good))
  simpa [tStruct] using this

theorem endpoint_good (e : Endpoint) (h : Short e.service) : Good (zeEndpoint e) (endpointBytes e) := by
  apply Steps.seq
  have h1 := ((steps_field 8 1 _ _ (i32_good e.ipv4)).append (steps_field 6 2 _ _ (i16_good e.port))).append
    (steps_field 11 3 _ _ (string_good e.service h))
  have h2 := steps_struct (es := [tField 8 1 (num 4 e.ipv4), tField 6 2 (num 2 e.port), tField 11 3 (tString e.service)])
    (by simpa using h1)
  simpa [endpointBytes, List.append_assoc] using h2

theorem steps_host (id : Int) (o : Option Endpoint) (h : ∀ e ∈ o, Short e.service) :
    Steps (hostField id o) (opt o fun e => tField 12 id (endpointBytes e)).flatten := by
  cases o with
  | none => exact Steps.nil
  | some e =>
    have := steps_field 12 id _ _ (endpoint_good e (h e rfl))
    simpa [hostField, opt] using this

theorem annotation_good (a : Annotation) (h1 : Short a.value) (h2 : ∀ e ∈ a.host, Short e.service) :
    Good (zeAnnotation a) (annotationBytes a) := by
  apply Steps.seq
  have k := ((steps_field 10 1 _ _ (i64_good a.timestamp)).append (steps_field 11 2 _ _ (string_good a.value h1))).append
    (steps_host 3 a.host h2)
  have := steps_struct (es := [tField 10 1 (num 8 a.timestamp), tField 11 2 (tString a.value)] ++
    opt a.host fun e => tField 12 3 (endpointBytes e)) (by simpa using k)
  simpa [annotationBytes, List.append_assoc] using this

theorem binAnnotation_good (a : BinAnnotation) (h1 : Short a.key) (h2 : ∀ e ∈ a.host, Short e.service) :
    Good (zeBinAnnotation a) (binaryBytes a) := by
  apply Steps.seq
  have k := (((steps_field 11 1 _ _ (string_good a.key h1)).append (steps_field 11 2 _ _ (binary_good a.value))).append
    (steps_field 8 3 _ _ (i32_good a.type))).append (steps_host 4 a.host h2)
  have := steps_struct (es := [tField 11 1 (tString a.key), tField 11 2 (tString a.value), tField 8 3 (num 4 a.type)] ++
    opt a.host fun e => tField 12 4 (endpointBytes e)) (by simpa using k)
  simpa [binaryBytes, List.append_assoc] using this

theorem steps_map {α : Type} (f : α → F) (g : α → Str) (l : List α) (h : ∀ a ∈ l, Good (f a) (g a)) :
    Steps (l.map f) (l.map g).flatten := by
  induction l with
  | nil => exact Steps.nil
  | cons a l ih =>
    exact (Steps.one (h a (by simp))).append (ih fun b hb => h b (by simp [hb]))

theorem listBegin_good (n : Nat) : Good (zeListBegin 12 n) ([12] ++ num 4 n) := by
  rw [← be32_num]; exact (listBegin_writes 12 n).good

theorem steps_list {α : Type} (id : Int) (f : α → F) (g : α → Str) (l : List α) (h : ∀ a ∈ l, Good (f a) (g a)) :
    Steps (listField id (l.map f)) (if l = [] then [] else [tField 15 id (tList (l.map g))]).flatten := by
  cases l with
  | nil => exact Steps.nil
  | cons a l =>
    have h1 : Good (zeFieldBegin 15 id) ([15] ++ num 2 id) := by
      rw [← be16_num]; exact (fieldBegin_writes 15 id).good
    have k := (((Steps.one h1).append (Steps.one (listBegin_good (a :: l).length))).append (steps_map f g (a :: l) h)).append
      ((Steps.one zero_good).append (Steps.one zero_good))
    simpa [listField, tField, tList] using k

theorem steps_num (c : Prop) [Decidable c] (id : Int) (v : Int) :
    Steps (if ¬ c then field 10 id (zeI64 v) else []) (if c then [] else [tField 10 id (num 8 v)]).flatten := by
  by_cases h : c
  · simpa [h] using Steps.nil
  · simpa [h] using steps_field 10 id _ _ (i64_good v)

/-- the fields of a span as the protocol has them, without the end mark -/
theorem steps_span (v : Span) (h : Fits v) : ∃ body, Steps (spanFields v) body ∧ spanBytes v = body ++ [0] := by
  obtain ⟨hn, ha, hb⟩ := h
  have k1 := ((Steps.one zero_good).append (steps_field 10 1 _ _ (i64_good v.trace))).append (steps_field 11 3 _ _ (string_good v.name hn))
  have k2 := k1.append (steps_field 10 4 _ _ (i64_good v.id))
  have kp : Steps (match v.parent with | none => [] | some p => field 10 5 (zeI64 p))
      (opt v.parent fun p => tField 10 5 (num 8 p)).flatten := by
    cases v.parent with
    | none => exact Steps.nil
    | some p => simpa [opt] using steps_field 10 5 _ _ (i64_good p)
  have kd : Steps (match v.debug with | none => [] | some d => field 2 9 (zeBool d))
      (opt v.debug fun d => tField 2 9 [if d then 1 else 0]).flatten := by
    cases v.debug with
    | none => exact Steps.nil
    | some d => simpa [opt] using steps_field 2 9 (zeBool d) _ (fixed_writes [if d then 1 else 0] (by simp)).good
  have ka := steps_list 6 zeAnnotation annotationBytes v.annotations fun a h => annotation_good a (ha a h).1 (ha a h).2
  have kb := steps_list 8 zeBinAnnotation binaryBytes v.binary fun a h => binAnnotation_good a (hb a h).1 (hb a h).2
  have kt := steps_num (v.timestamp = 0) 10 v.timestamp
  have ku := steps_num (v.duration = 0) 11 v.duration
  refine ⟨_, (((((k2.append kp).append ka).append kb).append kd).append kt).append ku, ?_⟩
  simp [spanBytes, tStruct, List.append_assoc]

/-! ## Half of the room -/

/-- the last step is an empty one -/
def EndsZero (fs : List F) : Prop := ∃ l, fs = l ++ [zero]

theorem EndsZero.append {fs gs : List F} (h : EndsZero fs) (hg : gs = [] ∨ EndsZero gs) : EndsZero (fs ++ gs) := by
  rcases hg with rfl | ⟨l, rfl⟩
  · simpa using h
  · exact ⟨fs ++ l, by simp⟩

theorem endsZero_field (ty : Nat) (id : Int) (f : F) : EndsZero (field ty id f) := ⟨[zeFieldBegin ty id, f], rfl⟩

theorem endsZero_list (id : Int) (fs : List F) : listField id fs = [] ∨ EndsZero (listField id fs) := by
  cases fs with
  | nil => exact Or.inl rfl
  | cons f fs => exact Or.inr ⟨[zeFieldBegin 15 id, zeListBegin 12 (f :: fs).length] ++ (f :: fs) ++ [zero], by simp [listField]⟩

theorem endsZero_span (v : Span) : EndsZero (spanFields v) := by
  unfold spanFields
  refine EndsZero.append (EndsZero.append (EndsZero.append (EndsZero.append (EndsZero.append (EndsZero.append
    (EndsZero.append (EndsZero.append ⟨[], rfl⟩ (Or.inr (endsZero_field _ _ _))) (Or.inr (endsZero_field _ _ _)))
    (Or.inr (endsZero_field _ _ _))) ?_) (endsZero_list _ _)) (endsZero_list _ _)) ?_) ?_ |>.append ?_
  · cases v.parent with
    | none => exact Or.inl rfl
    | some p => exact Or.inr (endsZero_field _ _ _)
  · cases v.debug with
    | none => exact Or.inl rfl
    | some p => exact Or.inr (endsZero_field _ _ _)
  · split
    · exact Or.inr (endsZero_field _ _ _)
    · exact Or.inl rfl
  · split
    · exact Or.inr (endsZero_field _ _ _)
    · exact Or.inl rfl

theorem run_append (fs gs : List F) (w : W) : run (fs ++ gs) w = run fs w >>= run gs := by
  induction fs generalizing w with
  | nil => simp [run]
  | cons f fs ih =>
    simp only [List.cons_append, run]
    cases adv f w with
    | ok w' => simp [ih]
    | ub => simp
    | abort => simp

theorem adv_zero (w : W) : adv zero w = .ok (if w.sofar > w.len then ⟨w.buf, w.off, 0, w.sofar⟩ else w) := by
  unfold adv zero
  simp only [Out.ok_bind, Nat.add_zero, Nat.sub_zero, Out.pure_eq]
  split <;> rfl

theorem adv_stop (w : W) (h : w.off + w.len ≤ w.buf.length) : ∃ w', adv zeFieldStop w = .ok w' ∧ w'.sofar = w.sofar + 1 ∧
    w'.buf = if 0 < w.len then splice w.buf w.off [0] else w.buf := by
  unfold adv zeFieldStop zeByte
  by_cases hl : 0 < w.len
  · rw [fixed_at [0] (by simp) w.buf w.off w.len (by simp; omega) (by simp; omega), if_pos hl]
    simp only [Out.ok_bind, Out.pure_eq]
    split
    · exact ⟨_, rfl, rfl, rfl⟩
    · exact ⟨_, rfl, rfl, rfl⟩
  · have : fixed [0] w.buf w.off w.len = .ok (w.buf, 1) := by
      simp only [fixed]; rw [if_neg (by simp; omega)]; rfl
    rw [this, if_neg hl]
    simp only [Out.ok_bind, Out.pure_eq]
    split
    · exact ⟨_, rfl, rfl, rfl⟩
    · exact ⟨_, rfl, rfl, rfl⟩

/-- What `mtev_zipkin_encode` does, exactly: with `n` bytes without the end mark, and room for `len`, all is written if
`2 n ≤ len`; otherwise the end mark is not written. -/
theorem encode_exact (v : Span) (h : Fits v) (b : Block) (len : Nat) (hl : len ≤ b.length) :
    ∃ b', encode v b 0 len = .ok (b', (spanBytes v).length) ∧ Within b b' 0 (min len (spanBytes v).length) ∧
      (2 * ((spanBytes v).length - 1) ≤ len → (spanBytes v).length ≤ len → b' = splice b 0 (spanBytes v)) ∧
      (len < 2 * ((spanBytes v).length - 1) → b'[(spanBytes v).length - 1]? = b[(spanBytes v).length - 1]?) := by
  obtain ⟨body, hbody, hspan⟩ := steps_span v h
  have hlen : (spanBytes v).length = body.length + 1 := by rw [hspan]; simp
  obtain ⟨l, hz⟩ := endsZero_span v
  -- the whole, for length and bounds
  have hgood : Good (zeSpan v) (spanBytes v) := by
    have := hbody.append ((Steps.one stop_good).append (Steps.one zero_good))
    rw [hspan]
    exact Steps.seq (by simpa using this)
  obtain ⟨bw, e1, e2, -⟩ := hgood b 0 len (by simpa using hl)
  -- the fields
  obtain ⟨es, g1, g2⟩ := hbody
  obtain ⟨w', r1, r2, r3, r4, r5, r6, r7⟩ := run_good (spanFields v) es g1 ⟨b, 0, len, 0⟩ (by simpa using hl)
  rw [g2] at r2 r3 r6 r7
  simp only [Nat.zero_add] at r2 r3 r5 r6 r7
  have hw' : w'.off + w'.len ≤ w'.buf.length := by rw [r2.1]; omega
  obtain ⟨w2, s1, s2, s3⟩ := adv_stop w' hw'
  have hrun : run (spanFields v ++ [zeFieldStop, zero]) ⟨b, 0, len, 0⟩ =
      .ok (if w2.sofar > w2.len then ⟨w2.buf, w2.off, 0, w2.sofar⟩ else w2) := by
    rw [run_append, r1]
    simp only [Out.ok_bind, run, s1, adv_zero]
  have hsp : zeSpan v b 0 len = .ok (w2.buf, w2.sofar) := by
    unfold zeSpan seq
    rw [hrun]
    simp only [Out.ok_bind, Out.pure_eq]
    split <;> rfl
  have hb2 : bw = w2.buf := by
    rw [hsp] at e1
    injection e1 with e1
    injection e1 with e1 _
    exact e1.symm
  subst hb2
  refine ⟨w2.buf, ?_, e2, ?_, ?_⟩
  · unfold encode seq
    simp only [run, adv, e1, Out.ok_bind, Out.pure_eq, Nat.zero_add]
    split <;> simp
  · intro hn ht
    obtain ⟨q1, q2, q3⟩ := r7 (by omega)
    rw [s3, if_pos (by omega), q1, q2, hspan]
    have := splice_splice b 0 body [0] (by simp; omega)
    simpa using this
  · intro hn
    -- the empty step before the end mark has closed the room
    have hclosed : w'.len = 0 := by
      have hz' : ∃ u, run l ⟨b, 0, len, 0⟩ = .ok u ∧ adv zero u = .ok w' := by
        rw [hz, run_append] at r1
        cases hr : run l ⟨b, 0, len, 0⟩ with
        | ok u =>
          refine ⟨u, rfl, ?_⟩
          rw [hr] at r1
          simp only [Out.ok_bind, run] at r1
          cases ha : adv zero u with
          | ok x => rw [ha] at r1; simpa using r1
          | ub => rw [ha] at r1; simp at r1
          | abort => rw [ha] at r1; simp at r1
        | ub => rw [hr] at r1; simp at r1
        | abort => rw [hr] at r1; simp at r1
      obtain ⟨u, hu, ha⟩ := hz'
      rw [adv_zero] at ha
      injection ha with ha
      by_cases hc : u.sofar > u.len
      · rw [if_pos hc] at ha; rw [← ha]
      · rw [if_neg hc] at ha
        subst ha
        rcases le_total len body.length with hh | hh
        · rw [max_eq_right hh] at r6; omega
        · rw [max_eq_left hh] at r6; omega
    rw [s3, if_neg (by omega)]
    exact r2.2 _ (by omega)

/-! ## Properties -/

/-- **C130** Whatever the room, nothing outside it is written, and what is returned is the length of the whole encoding. -/
theorem C130_length (v : Span) (h : Fits v) (b : Block) (len : Nat) (hl : len ≤ b.length) :
    ∃ b', encode v b 0 len = .ok (b', (spanBytes v).length) ∧ b'.length = b.length ∧ ∀ i, len ≤ i → b'[i]? = b[i]? := by
  obtain ⟨b', h1, h2, -, -⟩ := encode_exact v h b len hl
  exact ⟨b', h1, h2.1, fun i hi => h2.2 i (Or.inr (by omega))⟩

/-- **C130** With twice the room (less two bytes) the buffer has the encoding the protocol prescribes.  Partial: it has to be twice the
room. -/
theorem C130_encode_partial (v : Span) (h : Fits v) (b : Block) (len : Nat) (hl : len ≤ b.length)
    (hfit : (spanBytes v).length ≤ len) (hn : 2 * ((spanBytes v).length - 1) ≤ len) :
    ∃ b', encode v b 0 len = .ok (b', (spanBytes v).length) ∧ b'.take (spanBytes v).length = spanBytes v := by
  obtain ⟨b', h1, h2, h3, -⟩ := encode_exact v h b len hl
  refine ⟨b', h1, ?_⟩
  rw [h3 hn hfit]
  simp [splice]

/-- **C130** fails for every span: if the encoding fits but takes more than half of the room, the returned length says that it was
written, but its end was not: the last byte is the one that was there before. -/
theorem C130_half_violated (v : Span) (h : Fits v) (b : Block) (len : Nat) (hl : len ≤ b.length)
    (hfit : (spanBytes v).length ≤ len) (hn : len < 2 * ((spanBytes v).length - 1)) :
    ∃ b', encode v b 0 len = .ok (b', (spanBytes v).length) ∧ b'[(spanBytes v).length - 1]? = b[(spanBytes v).length - 1]? := by
  obtain ⟨b', h1, h2, -, h4⟩ := encode_exact v h b len hl
  exact ⟨b', h1, h4 hn⟩

/-- **C130** A list of spans in a buffer of twice its length is encoded as the protocol prescribes; in every buffer the length is
returned and nothing is written outside. -/
theorem C130_list_partial (vs : List Span) (h : ∀ v ∈ vs, Fits v) (b : Block) (len : Nat) (hl : len ≤ b.length) :
    ∃ b', encodeList vs b 0 len = .ok (b', (spansBytes vs).length) ∧ (∀ i, len ≤ i → b'[i]? = b[i]?) ∧
      (2 * (spansBytes vs).length ≤ len → b'.take (spansBytes vs).length = spansBytes vs) := by
  have hg : ∀ v ∈ vs, Good (zeSpan v) (spanBytes v) := by
    intro v hv
    obtain ⟨body, hbody, hspan⟩ := steps_span v (h v hv)
    have := hbody.append ((Steps.one stop_good).append (Steps.one zero_good))
    rw [hspan]
    exact Steps.seq (by simpa using this)
  have k := ((Steps.one (listBegin_good vs.length)).append (steps_map zeSpan spanBytes vs hg)).append (Steps.one zero_good)
  have k2 : Good (zeSpanList vs) (spansBytes vs) := Steps.seq (by simpa [spansBytes, tList] using k)
  obtain ⟨b', h1, h2, h3⟩ := (Steps.seq (Steps.one k2)) b 0 len (by simpa using hl)
  refine ⟨b', h1, fun i hi => h2.2 i (Or.inr (by omega)), fun hn => ?_⟩
  rw [h3 hn]
  simp [splice]

/-- **C130** Spans whose encoding has at most 2097 bytes are published as the protocol prescribes, whatever was in memory before. -/
theorem C130_publish_partial (v : Span) (h : Fits v) (stack : Block) (hs : stack.length = 4192) (heap : Nat → Nat)
    (hn : (spanBytes v).length ≤ 2097) : publish stack heap v = .ok (some (spanBytes v)) := by
  obtain ⟨b', h1, h2⟩ := C130_encode_partial v h stack stack.length (le_refl _) (by omega) (by omega)
  unfold publish
  rw [h1]
  simp only [Out.ok_bind]
  rw [if_pos (by omega), h2]
  rfl

/-- **C130** fails for every longer span: it is published with its full length, but its last byte is what was in memory before. -/
theorem C130_publish_violated (v : Span) (h : Fits v) (stack : Block) (hs : stack.length = 4192) (heap : Nat → Nat)
    (hn : 2097 < (spanBytes v).length) : ∃ out, publish stack heap v = .ok (some out) ∧ out.length = (spanBytes v).length ∧
      out.getLast? = if (spanBytes v).length ≤ 4192 then stack[(spanBytes v).length - 1]? else some (heap ((spanBytes v).length - 1)) := by
  obtain ⟨b1, e1, e2, -, e4⟩ := encode_exact v h stack stack.length (le_refl _)
  unfold publish
  rw [e1]
  simp only [Out.ok_bind]
  have hlast : ∀ (b : Block), (spanBytes v).length ≤ b.length → (b.take (spanBytes v).length).getLast? = b[(spanBytes v).length - 1]? := by
    intro b hb
    rw [List.getLast?_eq_getElem?, List.length_take, Nat.min_eq_left hb, List.getElem?_take_of_lt (by omega)]
  by_cases hf : (spanBytes v).length ≤ stack.length
  · rw [if_pos hf, if_pos (by omega)]
    refine ⟨_, rfl, by rw [List.length_take, e2.1]; omega, ?_⟩
    rw [hlast b1 (by rw [e2.1]; exact hf), e4 (by omega)]
  · rw [if_neg hf, if_neg (by omega)]
    have hm : (malloc heap (spanBytes v).length).length = (spanBytes v).length := by simp [malloc]
    obtain ⟨b2, f1, f2, -, f4⟩ := encode_exact v h (malloc heap (spanBytes v).length) (spanBytes v).length (by omega)
    rw [f1]
    simp only [Out.ok_bind]
    rw [if_neg (by omega)]
    refine ⟨_, rfl, by rw [List.length_take, f2.1, hm]; omega, ?_⟩
    rw [hlast b2 (by rw [f2.1]; omega), f4 (by omega)]
    simp [malloc, List.getElem?_map, List.getElem?_range (show (spanBytes v).length - 1 < (spanBytes v).length by omega)]

/-- a span with an annotation, its host and a binary annotation -/
def sample : Span :=
  ⟨1, bytesOf "get", 2, some 1, [⟨5, bytesOf "sr", some ⟨2130706433, 80, bytesOf "mtev"⟩⟩], [⟨bytesOf "k", [1, 2], 1, none⟩], some true, 5, 7⟩

theorem sample_fits : Fits sample := by
  refine ⟨by decide, ?_, ?_⟩
  · intro a ha
    simp [sample] at ha
    subst ha
    refine ⟨by decide, ?_⟩
    intro e he
    simp at he
    subst he
    decide
  · intro a ha
    simp [sample] at ha
    subst ha
    exact ⟨by decide, by simp⟩

example : (spanBytes sample).length = 159 := by decide +kernel

/-- the sample in a buffer of 300 bytes has no end -/
example : ∃ b', encode sample (List.replicate 300 7) 0 300 = .ok (b', 159) ∧ b'[158]? = some 7 := by
  obtain ⟨b', h1, h2⟩ := C130_half_violated sample sample_fits (List.replicate 300 7) 300 (by decide +kernel) (by decide +kernel) (by decide +kernel)
  have hl : (spanBytes sample).length = 159 := by decide +kernel
  rw [hl] at h1 h2
  exact ⟨b', h1, by rw [h2]; decide⟩

end Mtev.Zipkin
