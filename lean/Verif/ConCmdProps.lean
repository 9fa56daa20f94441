import Verif.ConCmd

/-!
# C120 Abbreviated commands, C121 completion
-/

namespace Mtev.ConCmd

/-! ### the order -/

theorem lt_irrefl : ∀ a : Str, lt a a = false
  | [] => rfl
  | a :: s => by simp [lt, lt_irrefl s]

theorem lt_trans : ∀ a b c : Str, lt a b = true → lt b c = true → lt a c = true
  | _, [], _, h, _ => by simp [lt] at h
  | _, _ :: _, [], _, h => by simp [lt] at h
  | [], _ :: _, _ :: _, _, _ => rfl
  | a :: s, b :: t, c :: u, h1, h2 => by
    simp only [lt, Bool.or_eq_true, decide_eq_true_eq, Bool.and_eq_true] at h1 h2 ⊢
    rcases h1 with h1 | ⟨rfl, h1⟩
    · rcases h2 with h2 | ⟨rfl, h2⟩
      · exact Or.inl (by omega)
      · exact Or.inl h1
    · rcases h2 with h2 | ⟨rfl, h2⟩
      · exact Or.inl h2
      · exact Or.inr ⟨rfl, lt_trans s t u h1 h2⟩

theorem lt_tri : ∀ a b : Str, lt a b = true ∨ a = b ∨ lt b a = true
  | [], [] => Or.inr (Or.inl rfl)
  | [], _ :: _ => Or.inl rfl
  | _ :: _, [] => Or.inr (Or.inr rfl)
  | a :: s, b :: t => by
    simp only [lt, Bool.or_eq_true, decide_eq_true_eq, Bool.and_eq_true, List.cons.injEq]
    rcases Nat.lt_trichotomy a b with h | h | h
    · exact Or.inl (Or.inl h)
    · subst h
      rcases lt_tri s t with h | h | h
      · exact Or.inl (Or.inr ⟨rfl, h⟩)
      · exact Or.inr (Or.inl ⟨rfl, h⟩)
      · exact Or.inr (Or.inr (Or.inr ⟨rfl, h⟩))
    · exact Or.inr (Or.inr (Or.inl h))

/-- what begins with `a` is not less than `a` -/
theorem prefix_not_lt : ∀ a y : Str, a <+: y → lt y a = false
  | [], y, _ => by cases y <;> rfl
  | a :: s, [], h => by simp at h
  | a :: s, y :: t, h => by
    rw [List.cons_prefix_cons] at h
    obtain ⟨rfl, h⟩ := h
    simp [lt, prefix_not_lt s t h]

/-- between `a` and what begins with `a` everything begins with `a` -/
theorem prefix_between : ∀ a x y : Str, lt a x = true → lt x y = true → a <+: y → a <+: x
  | [], x, _, _, _, _ => List.nil_prefix
  | _ :: _, [], _, h, _, _ => by simp [lt] at h
  | _ :: _, _ :: _, [], _, h, _ => by simp [lt] at h
  | a :: s, b :: t, c :: u, h1, h2, h3 => by
    simp only [lt, Bool.or_eq_true, decide_eq_true_eq, Bool.and_eq_true] at h1 h2
    rw [List.cons_prefix_cons] at h3 ⊢
    obtain ⟨rfl, h3⟩ := h3
    rcases h1 with h1 | ⟨rfl, h1⟩
    · rcases h2 with h2 | ⟨h2, _⟩ <;> omega
    · rcases h2 with h2 | ⟨_, h2⟩
      · omega
      · exact ⟨rfl, prefix_between s t u h1 h2 h3⟩

theorem begins_iff (a n : Str) : begins a n = true ↔ lower a <+: lower n := by
  unfold begins; exact List.isPrefixOf_iff_prefix

/-- in order, no two names alike -/
def Sorted (l : List Cmd) : Prop := l.Pairwise fun c d => caseLt c.name d.name = true

/-- the commands that begin with what was typed, capital letters or not -/
def Candidates (l : List Cmd) (a : Str) : List Cmd := l.filter fun c => begins a c.name

/-! ### the table -/

theorem add_mem (c x : Cmd) : ∀ l : List Cmd, x ∈ add l c → x = c ∨ x ∈ l
  | [], h => by simpa [add] using h
  | d :: l, h => by
    unfold add at h
    split at h
    · simpa using h
    · split at h
      · exact Or.inr h
      · rcases List.mem_cons.1 h with rfl | h
        · exact Or.inr (by simp)
        · rcases add_mem c x l h with h | h
          · exact Or.inl h
          · exact Or.inr (by simp [h])

theorem add_sorted (c : Cmd) : ∀ l : List Cmd, Sorted l → Sorted (add l c)
  | [], _ => by simp [add, Sorted]
  | d :: l, h => by
    have h1 : ∀ x ∈ l, caseLt d.name x.name = true := (List.pairwise_cons.1 h).1
    have h2 : Sorted l := (List.pairwise_cons.1 h).2
    unfold add
    split
    · rename_i hlt
      refine List.pairwise_cons.2 ⟨?_, h⟩
      intro x hx
      rcases List.mem_cons.1 hx with rfl | hx
      · exact hlt
      · exact lt_trans _ _ _ hlt (h1 x hx)
    · split
      · exact h
      · rename_i hn he
        refine List.pairwise_cons.2 ⟨?_, add_sorted c l h2⟩
        intro x hx
        rcases add_mem c x l hx with rfl | hx
        · rcases lt_tri (lower x.name) (lower d.name) with e | e | e
          · exact absurd e hn
          · exact absurd (by simpa [caseEq] using e) he
          · exact e
        · exact h1 x hx


theorem add_find (a : Str) (c : Cmd) : ∀ l : List Cmd, Sorted l →
    (add l c).find? (fun x => caseEq a x.name) =
      (l.find? (fun x => caseEq a x.name)).or (if caseEq a c.name then some c else none)
  | [], _ => by
    unfold add
    by_cases h : caseEq a c.name = true <;> simp [h]
  | d :: l, h => by
    have h1 : ∀ x ∈ l, caseLt d.name x.name = true := (List.pairwise_cons.1 h).1
    unfold add
    split
    · rename_i hlt
      by_cases hc : caseEq a c.name = true
      · have hno : (d :: l).find? (fun x => caseEq a x.name) = none := by
          rw [List.find?_eq_none]
          intro x hx he
          have hlx : caseLt c.name x.name = true := by
            rcases List.mem_cons.1 hx with rfl | hx
            · exact hlt
            · exact lt_trans _ _ _ hlt (h1 x hx)
          have e1 : lower a = lower c.name := by simpa [caseEq] using hc
          have e2 : lower a = lower x.name := by simpa [caseEq] using he
          rw [caseLt, ← e1, ← e2, lt_irrefl] at hlx
          cases hlx
        rw [hno]
        simp [hc]
      · rw [List.find?_cons_of_neg (p := fun x : Cmd => caseEq a x.name) hc]
        simp [hc]
    · split
      · rename_i he
        have e1 : lower c.name = lower d.name := by simpa [caseEq] using he
        by_cases hc : caseEq a c.name = true
        · have hd : caseEq a d.name = true := by
            have : lower a = lower c.name := by simpa [caseEq] using hc
            simp [caseEq, this, e1]
          rw [List.find?_cons_of_pos (p := fun x : Cmd => caseEq a x.name) hd]
          rfl
        · simp [hc]
      · by_cases hd : caseEq a d.name = true
        · rw [List.find?_cons_of_pos (p := fun x : Cmd => caseEq a x.name) hd, List.find?_cons_of_pos (p := fun x : Cmd => caseEq a x.name) hd]; rfl
        · rw [List.find?_cons_of_neg (p := fun x : Cmd => caseEq a x.name) hd, List.find?_cons_of_neg (p := fun x : Cmd => caseEq a x.name) hd]
          exact add_find a c l (List.pairwise_cons.1 h).2

/-- all tables there are: commands added one after the other -/
def table (cs : List Cmd) : List Cmd := cs.foldl add []

theorem table_sorted (cs : List Cmd) : Sorted (table cs) := by
  have : ∀ (cs l : List Cmd), Sorted l → Sorted (cs.foldl add l) := by
    intro cs
    induction cs with
    | nil => intro l h; exact h
    | cons c cs ih => intro l h; exact ih _ (add_sorted c l h)
  exact this cs [] (by simp [Sorted])

/-- **C120** Of several commands of the same name, capital letters or not, the one added first counts. -/
theorem C120_first (cs : List Cmd) (a : Str) :
    (table cs).find? (fun x => caseEq a x.name) = cs.find? fun x => caseEq a x.name := by
  have : ∀ (cs l : List Cmd), Sorted l → (cs.foldl add l).find? (fun x => caseEq a x.name) =
      (l.find? fun x => caseEq a x.name).or (cs.find? fun x => caseEq a x.name) := by
    intro cs
    induction cs with
    | nil => intro l _; simp
    | cons c cs ih =>
      intro l h
      simp only [List.foldl_cons]
      rw [ih _ (add_sorted c l h), add_find a c l h, Option.or_assoc]
      congr 1
      by_cases hc : caseEq a c.name = true
      · rw [List.find?_cons_of_pos (p := fun x : Cmd => caseEq a x.name) hc]; simp [hc]
      · rw [List.find?_cons_of_neg (p := fun x : Cmd => caseEq a x.name) hc]; simp [hc]
  have := this cs [] (by simp [Sorted])
  simpa [table] using this

/-! ### the lookup -/

theorem seek_spec (a : Str) : ∀ (l : List Cmd) (p : Option Cmd), Sorted l →
    ∃ u, l = u ++ (seek a p l).2 ∧ (∀ x ∈ u, caseLt x.name a = true) ∧
      (∀ x ∈ (seek a p l).2, caseLt x.name a = false) ∧ (seek a p l).1 = (u.getLast?).or p
  | [], p, _ => ⟨[], rfl, by simp, by simp [seek], by simp [seek]⟩
  | c :: l, p, h => by
    unfold seek
    split
    · rename_i hc
      obtain ⟨u, h1, h2, h3, h4⟩ := seek_spec a l (some c) (List.pairwise_cons.1 h).2
      refine ⟨c :: u, by rw [List.cons_append, ← h1], ?_, h3, ?_⟩
      · intro x hx
        rcases List.mem_cons.1 hx with rfl | hx
        · exact hc
        · exact h2 x hx
      · rw [h4]
        cases u with
        | nil => simp
        | cons y u =>
          rw [List.getLast?_cons_cons]
          cases hg : (y :: u).getLast? with
          | none => simp at hg
          | some z => rfl
    · rename_i hc
      refine ⟨[], rfl, by simp, ?_, by simp⟩
      intro x hx
      rcases List.mem_cons.1 hx with rfl | hx
      · simpa using hc
      · by_contra hx2
        have := lt_trans _ _ _ ((List.pairwise_cons.1 h).1 x hx) (by simpa [caseLt] using hx2)
        exact hc this

theorem not_begins (a n : Str) (h : caseLt n a = true) : begins a n = false := by
  by_contra hb
  have hb : begins a n = true := by simpa using hb
  have := prefix_not_lt _ _ ((begins_iff a n).1 hb)
  rw [caseLt] at h
  rw [this] at h; cases h

/-- the candidates are all after the place that is sought -/
theorem candidates_seek (a : Str) (l : List Cmd) (p : Option Cmd) (h : Sorted l) :
    Candidates l a = (seek a p l).2.filter fun c => begins a c.name := by
  obtain ⟨u, h1, h2, _, _⟩ := seek_spec a l p h
  unfold Candidates
  conv_lhs => rw [h1]
  rw [List.filter_append]
  have : u.filter (fun c => begins a c.name) = [] := by
    rw [List.filter_eq_nil_iff]
    intro x hx
    simp [not_begins a _ (h2 x hx)]
  rw [this, List.nil_append]

/-- after `a` the candidates come first -/
theorem filter_takeWhile (a : Str) : ∀ l : List Cmd, Sorted l → (∀ x ∈ l, lt (lower a) (lower x.name) = true) →
    l.filter (fun c => begins a c.name) = l.takeWhile fun c => begins a c.name
  | [], _, _ => rfl
  | c :: l, h, ha => by
    by_cases hc : begins a c.name = true
    · rw [List.filter_cons_of_pos (p := fun x : Cmd => begins a x.name) hc, List.takeWhile_cons_of_pos (p := fun x : Cmd => begins a x.name) hc,
        filter_takeWhile a l (List.pairwise_cons.1 h).2 fun x hx => ha x (by simp [hx])]
    · rw [List.filter_cons_of_neg (p := fun x : Cmd => begins a x.name) hc, List.takeWhile_cons_of_neg (p := fun x : Cmd => begins a x.name) hc, List.filter_eq_nil_iff]
      intro x hx hb
      have := prefix_between _ _ _ (ha c (by simp)) ((List.pairwise_cons.1 h).1 x hx) ((begins_iff _ _).1 hb)
      exact hc ((begins_iff _ _).2 this)

theorem sorted_suffix {l u v : List Cmd} (h : Sorted l) (e : l = u ++ v) : Sorted v := by
  subst e
  exact (List.pairwise_append.1 h).2.1

theorem after (a : Str) {l : List Cmd} {c : Cmd} {t : List Cmd} (h : Sorted l)
    (hs : (seek a none l).2 = c :: t) (hc : caseEq a c.name = false) : ∀ x ∈ c :: t, lt (lower a) (lower x.name) = true := by
  obtain ⟨u, h1, _, h3, _⟩ := seek_spec a l none h
  rw [hs] at h1 h3
  have hsort := sorted_suffix h h1
  have hc' : lt (lower a) (lower c.name) = true := by
    rcases lt_tri (lower a) (lower c.name) with e | e | e
    · exact e
    · simp [caseEq, e] at hc
    · have := h3 c (by simp); rw [caseLt] at this; rw [e] at this; cases this
  intro x hx
  rcases List.mem_cons.1 hx with rfl | hx
  · exact hc'
  · exact lt_trans _ _ _ hc' ((List.pairwise_cons.1 hsort).1 x hx)

/-- the command of that name is where the list is sought -/
theorem seek_exact (a : Str) {l : List Cmd} {c : Cmd} (h : Sorted l) (hm : c ∈ l) (hc : lower a = lower c.name) :
    ∃ t, (seek a none l).2 = c :: t := by
  obtain ⟨u, h1, h2, h3, _⟩ := seek_spec a l none h
  have hcv : c ∈ (seek a none l).2 := by
    rw [h1] at hm
    rcases List.mem_append.1 hm with hm | hm
    · have := h2 c hm; rw [caseLt, hc, lt_irrefl] at this; cases this
    · exact hm
  cases hv : (seek a none l).2 with
  | nil => rw [hv] at hcv; simp at hcv
  | cons d t =>
    rw [hv] at hcv h1 h3
    rcases List.mem_cons.1 hcv with rfl | hcv
    · exact ⟨t, rfl⟩
    · have := (List.pairwise_cons.1 (sorted_suffix h h1)).1 c hcv
      have h4 := h3 d (by simp)
      rw [caseLt] at this h4
      rw [hc, this] at h4; cases h4

/-- no command has that name -/
theorem seek_other (a : Str) {l : List Cmd} {c : Cmd} {t : List Cmd} (h : Sorted l)
    (hx : ∀ x ∈ l, lower x.name ≠ lower a) (hs : (seek a none l).2 = c :: t) : caseEq a c.name = false := by
  obtain ⟨u, h1, _, _, _⟩ := seek_spec a l none h
  have : c ∈ l := by rw [h1, hs]; simp
  have := hx c this
  simp only [caseEq, decide_eq_false_iff_not]
  exact fun e => this e.symm

/-- **C120** The name in full, capital letters or not: the command is run, whatever else begins with it. -/
theorem C120_exact (cs : List Cmd) (a : Str) (c : Cmd) (hm : c ∈ table cs) (hc : lower a = lower c.name) :
    act (table cs) a = .run c := by
  obtain ⟨t, ht⟩ := seek_exact a (table_sorted cs) hm hc
  unfold act
  rw [ht]
  simp [caseEq, hc]

/-- the beginnings: what follows from the candidates -/
theorem act_other (l : List Cmd) (h : Sorted l) (a : Str) (hx : ∀ x ∈ l, lower x.name ≠ lower a) :
    act l a =
      match Candidates l a with
      | [] => missing l a
      | [c] => if lower c.name = lower (bytesOf "exit") then missing l a else .run c
      | c :: d :: t => .ambiguous (c :: d :: t) := by
  rw [candidates_seek a l none h]
  unfold act
  cases hs : (seek a none l).2 with
  | nil => rfl
  | cons c t =>
    have hc := seek_other a h hx hs
    have haf := after a h hs hc
    obtain ⟨u, h1, _, _, _⟩ := seek_spec a l none h
    rw [hs] at h1
    have hsort := sorted_suffix h h1
    simp only [hc, Bool.false_eq_true, if_false]
    rw [filter_takeWhile a (c :: t) hsort haf]
    by_cases hb : begins a c.name = true
    · rw [if_pos hb, List.takeWhile_cons_of_pos (p := fun x : Cmd => begins a x.name) hb]
      cases t with
      | nil =>
        simp only [List.takeWhile_nil, caseEq, decide_eq_true_eq]
      | cons p t =>
        simp only
        by_cases hp : begins a p.name = true
        · rw [if_pos hp, List.takeWhile_cons_of_pos (p := fun x : Cmd => begins a x.name) hp]
        · rw [if_neg hp, List.takeWhile_cons_of_neg (p := fun x : Cmd => begins a x.name) hp]
          simp only [caseEq, decide_eq_true_eq]
    · rw [if_neg hb, List.takeWhile_cons_of_neg (p := fun x : Cmd => begins a x.name) hb]

/-- **C120** A beginning that fits one command only runs it; `exit` alone must be written in full. -/
theorem C120_unique (cs : List Cmd) (a : Str) (c : Cmd) (hx : ∀ x ∈ table cs, lower x.name ≠ lower a)
    (hc : Candidates (table cs) a = [c]) (he : lower c.name ≠ lower (bytesOf "exit")) : act (table cs) a = .run c := by
  rw [act_other _ (table_sorted cs) a hx, hc]
  simp [he]

/-- **C120** A beginning that fits several runs none: all of them are listed, and no other. -/
theorem C120_ambiguous (cs : List Cmd) (a : Str) (hx : ∀ x ∈ table cs, lower x.name ≠ lower a)
    (hc : 2 ≤ (Candidates (table cs) a).length) : act (table cs) a = .ambiguous (Candidates (table cs) a) := by
  rw [act_other _ (table_sorted cs) a hx]
  cases h : Candidates (table cs) a with
  | nil => rw [h] at hc; simp at hc
  | cons c t =>
    cases t with
    | nil => rw [h] at hc; simp at hc
    | cons d t => rfl

/-- **C120** A question mark, when no command begins with one, lists all commands and runs none. -/
theorem C120_question (cs : List Cmd) (hc : Candidates (table cs) (bytesOf "?") = []) :
    act (table cs) (bytesOf "?") = .listed (table cs) := by
  have hx : ∀ x ∈ table cs, lower x.name ≠ lower (bytesOf "?") := by
    intro x hx he
    have : x ∈ Candidates (table cs) (bytesOf "?") := by
      unfold Candidates
      simp [hx, begins, he]
    rw [hc] at this
    cases this
  rw [act_other _ (table_sorted cs) _ hx, hc]
  rfl

/-- **C120** A beginning that fits none (or only `exit`): the command without a name if there is one, otherwise nothing is
run. -/
theorem C120_unknown (cs : List Cmd) (a : Str) (hx : ∀ x ∈ table cs, lower x.name ≠ lower a)
    (hc : ∀ c ∈ Candidates (table cs) a, lower c.name = lower (bytesOf "exit")) (hq : a ≠ bytesOf "?") :
    (∀ c ∈ table cs, c.name = [] → act (table cs) a = .default c) ∧
    ((∀ c ∈ table cs, c.name ≠ []) → act (table cs) a = .unknown) := by
  have hs := table_sorted cs
  have h1 : act (table cs) a = missing (table cs) a := by
    rw [act_other _ hs a hx]
    cases h : Candidates (table cs) a with
    | nil => rfl
    | cons c t =>
      rw [h] at hc
      cases t with
      | nil => simp [hc c (by simp)]
      | cons d t =>
        -- two commands of the same name
        exfalso
        have hcs : Sorted (Candidates (table cs) a) := List.Pairwise.filter _ hs
        rw [h] at hcs
        have := (List.pairwise_cons.1 hcs).1 d (by simp)
        rw [caseLt, hc c (by simp), hc d (by simp), lt_irrefl] at this
        cases this
  rw [h1]
  have hq' : a ≠ [63] := hq
  unfold missing
  rw [if_neg hq']
  constructor
  · intro c hm hn
    obtain ⟨t, ht⟩ := seek_exact [] hs hm (by rw [hn])
    unfold find
    rw [ht]
    simp [caseEq, hn]
  · intro hn
    unfold find
    cases ht : (seek [] none (table cs)).2 with
    | nil => rfl
    | cons c t =>
      have : caseEq [] c.name = false := by
        apply seek_other [] hs _ ht
        intro x hx e
        apply hn x hx
        simpa [lower] using e
      simp [this]

/-- six commands, in the order they are added -/
def sample : List Cmd := [⟨bytesOf "show", 0⟩, ⟨bytesOf "log", 1⟩, ⟨bytesOf "exit", 2⟩, ⟨bytesOf "Shutdown", 3⟩, ⟨bytesOf "logs", 4⟩,
  ⟨bytesOf "SHOW", 5⟩]

example : act (table sample) (bytesOf "LOG") = .run ⟨bytesOf "log", 1⟩ ∧
    act (table sample) (bytesOf "sho") = .run ⟨bytesOf "show", 0⟩ ∧
    act (table sample) (bytesOf "sh") = .ambiguous [⟨bytesOf "show", 0⟩, ⟨bytesOf "Shutdown", 3⟩] ∧
    act (table sample) (bytesOf "ex") = .unknown ∧ act (table sample) (bytesOf "exit") = .run ⟨bytesOf "exit", 2⟩ := by
  decide +kernel

/-! ### C121 completion -/

theorem nth_spec (a : Str) : ∀ (l : List Cmd) (k : Nat), nth a k l = ((l.filter fun c => begins a c.name)[k]?).map Cmd.name
  | [], _ => rfl
  | c :: l, k => by
    unfold nth
    by_cases hb : begins a c.name = true
    · rw [if_pos hb, List.filter_cons_of_pos (p := fun x : Cmd => begins a x.name) hb]
      cases k with
      | zero => simp
      | succ k => simp [nth_spec a l k]
    · rw [if_neg hb, List.filter_cons_of_neg (p := fun x : Cmd => begins a x.name) hb]
      exact nth_spec a l k

/-- **C121** The completions are the commands that begin with what was typed, all of them, each once and in order.

Partial: the first command of the table is not typed in full.  Missing: see `C121_first_violated`. -/
theorem C121_all_partial (cs : List Cmd) (a : Str) (hf : ∀ c ∈ (table cs).head?, lower c.name ≠ lower a) (k : Nat) :
    complete (table cs) a k = ((Candidates (table cs) a)[k]?).map Cmd.name := by
  have hs := table_sorted cs
  generalize table cs = l at *
  obtain ⟨u, h1, h2, _, h4⟩ := seek_spec a l none hs
  rw [candidates_seek a l none hs]
  unfold complete
  cases hsk : seek a none l with
  | mk p v =>
    rw [hsk] at h1 h4
    simp only at h1 h4 ⊢
    cases v with
    | nil => simp
    | cons c t =>
      simp only
      by_cases hc : caseEq a c.name = true
      · rw [if_pos hc]
        cases u with
        | nil =>
          exfalso
          apply hf c
          · rw [h1]; simp
          · have : lower a = lower c.name := by simpa [caseEq] using hc
            exact this.symm
        | cons y u =>
          have hp : ∃ q ∈ y :: u, p = some q := by
            cases hg : (y :: u).getLast? with
            | none => simp at hg
            | some q => exact ⟨q, List.mem_of_getLast? hg, by rw [h4, hg]; rfl⟩
          obtain ⟨q, hq, rfl⟩ := hp
          simp only
          rw [nth_spec, List.filter_cons_of_neg (p := fun x : Cmd => begins a x.name) (by simp [not_begins a _ (h2 q hq)])]
      · rw [if_neg hc, nth_spec]

example : complete (table sample) (bytesOf "sh") 0 = some (bytesOf "show") ∧
    complete (table sample) (bytesOf "sh") 1 = some (bytesOf "Shutdown") ∧ complete (table sample) (bytesOf "sh") 2 = none ∧
    complete (table sample) (bytesOf "log") 1 = some (bytesOf "logs") := by decide +kernel

/-- **C121 violated** The first command of the table has no completions when it is typed in full, not even those that begin
with it. -/
theorem C121_first_violated : ∃ cs : List Cmd, Candidates (table cs) (bytesOf "log") = cs ∧ cs.length = 2 ∧
    ∀ k, complete (table cs) (bytesOf "log") k = none := by
  refine ⟨[⟨bytesOf "log", 1⟩, ⟨bytesOf "logs", 4⟩], by decide +kernel, rfl, ?_⟩
  intro k
  have : seek (bytesOf "log") none (table [⟨bytesOf "log", 1⟩, ⟨bytesOf "logs", 4⟩]) =
      (none, [⟨bytesOf "log", 1⟩, ⟨bytesOf "logs", 4⟩]) := by decide +kernel
  unfold complete
  rw [this]
  have h2 : caseEq (bytesOf "log") (bytesOf "log") = true := by decide
  simp [h2]

theorem eqLen_le : ∀ (m : Nat) (a b : Str), eqLen m a b ≤ m
  | 0, _, _ => by simp [eqLen]
  | m + 1, [], _ => by simp [eqLen]
  | m + 1, _ :: _, [] => by simp [eqLen]
  | m + 1, a :: s, b :: t => by
    unfold eqLen
    split
    · have := eqLen_le m s t; omega
    · omega

theorem eqLen_iff : ∀ (m : Nat) (a b : Str) (k : Nat), k ≤ a.length → (k ≤ eqLen m a b ↔ k ≤ m ∧ a.take k <+: b)
  | m, a, b, 0, _ => by simp
  | 0, a, b, k + 1, _ => by simp [eqLen]
  | m + 1, [], b, k + 1, h => by simp at h
  | m + 1, a :: s, [], k + 1, _ => by simp [eqLen]
  | m + 1, a :: s, b :: t, k + 1, h => by
    unfold eqLen
    simp only [List.take_succ_cons, List.cons_prefix_cons]
    have ih := eqLen_iff m s t k (by simpa using h)
    split
    · rename_i e
      rw [Nat.add_le_add_iff_right, ih]
      simp [e]
    · rename_i e
      simp [e]

theorem fold_iff (first : Str) (k : Nat) (hk : k ≤ first.length) : ∀ (more : List Str) (m : Nat),
    k ≤ more.foldl (fun m s => eqLen m first s) m ↔ k ≤ m ∧ ∀ s ∈ more, first.take k <+: s
  | [], m => by simp
  | s :: more, m => by
    simp only [List.foldl_cons]
    rw [fold_iff first k hk more, eqLen_iff m first s k hk]
    simp [and_assoc]

/-- the array is long enough: a power of two above the number of matches -/
theorem gather_ok : ∀ (l : List Str) (cap k : Nat), (cap = 1 ∧ k = 0) ∨ (k < cap ∧ 2 ≤ cap) → ∃ c, gather cap k l = .ok c ∧
    ((l = [] ∧ c = cap) ∨ (k + l.length < c))
  | [], cap, k, _ => ⟨cap, rfl, Or.inl ⟨rfl, rfl⟩⟩
  | s :: l, cap, k, h => by
    have hp : ∃ c, push cap k = .ok c ∧ k + 1 < c := by
      unfold push
      simp only
      by_cases hc : k + 1 ≥ cap
      · rw [if_pos hc, if_pos (by omega)]; exact ⟨_, rfl, by omega⟩
      · rw [if_neg hc, if_pos (by omega)]; exact ⟨_, rfl, by omega⟩
    obtain ⟨c, hc1, hc2⟩ := hp
    obtain ⟨d, hd1, hd2⟩ := gather_ok l c (k + 1) (Or.inr ⟨hc2, by omega⟩)
    refine ⟨d, by simp only [gather, hc1, Out.ok_bind, hd1], Or.inr ?_⟩
    rcases hd2 with ⟨rfl, rfl⟩ | h
    · simpa using hc2
    · simp only [List.length_cons]; omega

/-- **C121** What is put in place of what was typed is the longest beginning all completions have in common, and the array
of completions is never overrun, however many there are. -/
theorem C121_common (all : List Str) : ∃ r, matches_ all = .ok r ∧ (all = [] → r = none) ∧
    (all ≠ [] → ∃ p, r = some p ∧ (∀ s ∈ all, p <+: s) ∧ ∀ q, (∀ s ∈ all, q <+: s) → q <+: p) := by
  obtain ⟨c, hc, hc2⟩ := gather_ok all 1 0 (Or.inl ⟨rfl, rfl⟩)
  unfold matches_
  rw [hc]
  cases all with
  | nil => exact ⟨none, rfl, fun _ => rfl, fun h => absurd rfl h⟩
  | cons first more =>
    simp only [Out.ok_bind]
    have hc3 : 0 + (first :: more).length < c := by
      rcases hc2 with ⟨h, _⟩ | h
      · cases h
      · exact h
    rw [if_pos (by split <;> omega)]
    refine ⟨_, rfl, by simp, fun _ => ⟨_, rfl, ?_, ?_⟩⟩
    · have hle : more.foldl (fun m s => eqLen m first s) first.length ≤ first.length := by
        have : ∀ (l : List Str) (m : Nat), l.foldl (fun m s => eqLen m first s) m ≤ m := by
          intro l
          induction l with
          | nil => intro m; exact Nat.le_refl _
          | cons s l ih => intro m; exact Nat.le_trans (ih _) (eqLen_le m first s)
        exact this more _
      have := (fold_iff first _ hle more first.length).1 (Nat.le_refl _)
      intro s hs
      rcases List.mem_cons.1 hs with rfl | hs
      · exact List.take_prefix _ _
      · exact this.2 s hs
    · intro q hq
      have hqf := hq first (by simp)
      have hk : q.length ≤ first.length := hqf.length_le
      have e : q = first.take q.length := List.prefix_iff_eq_take.1 hqf
      have := (fold_iff first q.length hk more first.length).2 ⟨hk, fun s hs => e ▸ hq s (by simp [hs])⟩
      generalize hm : more.foldl (fun m s => eqLen m first s) first.length = m at *
      rw [e]
      exact List.take_prefix_take_left this

example : matches_ [bytesOf "show", bytesOf "shutdown", bytesOf "shift"] = .ok (some (bytesOf "sh")) := by decide +kernel

/-! ### capital letters -/

/-- the same up to capital letters `A`-`Z` -/
def SameLetters (a b : Str) : Prop :=
  List.Forall₂ (fun x y => x = y ∨ (65 ≤ x ∧ x ≤ 90 ∧ y = x + 32) ∨ (65 ≤ y ∧ y ≤ 90 ∧ x = y + 32)) a b

/-- **C120** What the theorems above mean by alike (`lower a = lower b`) is: the same up to capital letters, no more and no less. -/
theorem C120_letters : ∀ a b : Str, lower a = lower b ↔ SameLetters a b
  | [], [] => by simp [lower, SameLetters]
  | [], _ :: _ => ⟨by simp [lower], by intro h; cases h⟩
  | _ :: _, [] => ⟨by simp [lower], by intro h; cases h⟩
  | x :: a, y :: b => by
    have := C120_letters a b
    unfold SameLetters at this ⊢
    rw [List.forall₂_cons, ← this]
    simp only [lower, List.map_cons, List.cons.injEq, low]
    apply and_congr_left
    intro _
    split <;> split <;> omega

example : SameLetters (bytesOf "QUIZ") (bytesOf "quiZ") := by
  simp only [SameLetters]
  refine .cons (by decide) (.cons (by decide) (.cons (by decide) (.cons (by decide) .nil)))

end Mtev.ConCmd
