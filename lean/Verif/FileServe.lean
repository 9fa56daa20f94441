import Verif.Mem

/-!
# Model of serving files, `mtev_rest_simple_file_handler` in `src/mtev_rest.c`

The file system is a function from the names on the way from `/` to what is found there.  It does
not change while a request is served (the races between `realpath`, `stat` and `open` are not
modelled), and every directory may be searched.
-/

namespace Mtev.FileServe

/-- What a path can lead to.  Files carry their content and whether they may be opened. -/
inductive Node where
  | dir
  | file (readable : Bool) (content : List Nat)
  | link (target : List Nat)
deriving DecidableEq, Repr

/-- The file system: the names below `/`, in order, to what is there. -/
abbrev FS := List (List Nat) → Option Node

/-- The names between the slashes of a path; `cur` is the name begun. -/
def cut : List Nat → List Nat → List (List Nat)
  | [], cur => if cur = [] then [] else [cur]
  | x :: t, cur =>
    if x = 47 then (if cur = [] then cut t [] else cur :: cut t []) else cut t (cur ++ [x])

/-- The inner loop of `realpath(3)` between two symbolic links: `cur` is the directory reached and
the second argument the names left.  `next` continues after a symbolic link.  (Simplified: a slash
after the name of a file is ignored when nothing follows.) -/
def go (fs : FS) (next : List (List Nat) → List (List Nat) → Option (List (List Nat))) :
    List (List Nat) → List (List Nat) → Option (List (List Nat))
  | cur, [] => some cur
  | cur, n :: r =>
    if n = [46] then go fs next cur r
    else if n = [46, 46] then go fs next cur.dropLast r
    else match fs (cur ++ [n]) with
      | none => none
      | some .dir => go fs next (cur ++ [n]) r
      | some (.file _ _) => if r = [] then some (cur ++ [n]) else none
      | some (.link t) =>
        if t = [] then none else next (if t.head? = some 47 then [] else cur) (cut t [] ++ r)

/-- `realpath(3)`, with at most `k` symbolic links on the way. -/
def walk (fs : FS) : Nat → List (List Nat) → List (List Nat) → Option (List (List Nat))
  | 0 => go fs (fun _ _ => none)
  | k + 1 => go fs (walk fs k)

/-- The text of the path with these names. -/
def render (p : List (List Nat)) : List Nat :=
  if p = [] then [47] else (p.map (47 :: ·)).flatten

/-- `PATH_MAX` on Linux. -/
def pathMax : Nat := 4096

/-- `realpath(file, rfile)`, mtev_rest.c:1319: the names of the path found; `none` is `NULL`.  At
most 40 symbolic links are followed; the result has to fit `PATH_MAX`. -/
def realpath (fs : FS) (cwd : List (List Nat)) (file : List Nat) : Option (List (List Nat)) :=
  if file = [] then none
  else match walk fs 40 (if file.head? = some 47 then [] else cwd) (cut file []) with
    | none => none
    | some p => if (render p).length < pathMax then some p else none

/-- What the client is answered. -/
inductive Resp where
  | denied
  | notFound
  | content (type : List Nat) (body : List Nat)
deriving DecidableEq, Repr

/-- The name that is resolved, mtev_rest.c:1313-1317. -/
def fileName (root index pat : List Nat) : List Nat :=
  let file := (root ++ 47 :: pat).take (pathMax - 1)
  if file.getLast? = some 47 then file ++ index.take (pathMax - 1 - file.length) else file

/-- `rfile[i]`: behind the terminating NUL nothing was written by the program. -/
def charAt (rfile : List Nat) (i : Nat) : Out Nat :=
  if i < rfile.length then .ok (rfile.getD i 0) else if i = rfile.length then .ok 0 else .ub

/-- The rest of a text behind the last `c`; `none` if there is no `c`. -/
def afterLast (c : Nat) : List Nat → Option (List Nat)
  | [] => none
  | x :: t => match afterLast c t with
    | some r => some r
    | none => if x = c then some t else none

/-- The types known without configuration, mtev_rest.c:1619-1636. -/
def mimeDefaults : List (List Nat × List Nat) :=
  [(bytesOf "html", bytesOf "text/html"), (bytesOf "htm", bytesOf "text/html"),
   (bytesOf "js", bytesOf "text/javascript"), (bytesOf "css", bytesOf "text/css"),
   (bytesOf "ico", bytesOf "image/x-icon"), (bytesOf "gif", bytesOf "image/gif"),
   (bytesOf "png", bytesOf "image/png"), (bytesOf "jpg", bytesOf "image/jpg"),
   (bytesOf "jpeg", bytesOf "image/jpg"), (bytesOf "svg", bytesOf "image/svg+xml"),
   (bytesOf "json", bytesOf "application/json"),
   (bytesOf "eot", bytesOf "application/vnd.ms-fontobject"),
   (bytesOf "ttf", bytesOf "application/octet-stream"),
   (bytesOf "woff", bytesOf "application/font-woff"),
   (bytesOf "woff2", bytesOf "application/font-woff2")]

/-- The look-ups of the type, mtev_rest.c:1356-1366. -/
def typeOf (config : List Nat → Option (List Nat)) (ext : List Nat) : List Nat :=
  match config ((bytesOf "mime_type_" ++ ext).take (pathMax - 1)) with
  | some t => t
  | none => (mimeDefaults.lookup ext).getD (bytesOf "application/octet-stream")

/-- The content type, mtev_rest.c:1340-1367: `dot` is the last dot of the last name, or the first
character of that name when it has no dot; one character is skipped in both cases. -/
def contentType (config : List Nat → Option (List Nat)) (rfile : List Nat) : Out (List Nat) :=
  match afterLast 47 rfile with
  | none => .ub
  | some base =>
    match afterLast 46 base with
    | some ext => .ok (typeOf config ext)
    | none => match base with
      | [] => .ub
      | _ :: ext => .ok (typeOf config ext)

/-- `!(rfile[drlen] != '/' && rfile[drlen + 1] != '/')`, mtev_rest.c:1322. -/
def behindRoot (rfile : List Nat) (drlen : Nat) : Out Bool := do
  let a ← charAt rfile drlen
  if a = 47 then .ok true
  else do
    let b ← charAt rfile (drlen + 1)
    .ok (b == 47)

/-- `stat`, `open`, `mmap` and the answer, mtev_rest.c:1323-1375 and the label `not_found`.  The
size of a directory is not 0 and mapping a directory fails. -/
def sendFile (fs : FS) (config : List Nat → Option (List Nat)) (p : List (List Nat)) : Out Resp :=
  match (if p = [] then some .dir else fs p) with
  | some (.file rd c) =>
    if c ≠ [] ∧ rd = false then .ok .notFound
    else do
      let t ← contentType config (render p)
      .ok (.content t c)
  | _ => .ok .notFound

/-- `mtev_rest_simple_file_handler`, mtev_rest.c:1287-1385.  `config` is the hash of the listener's
configuration and `pats` what the route's pattern captured. -/
def serve (fs : FS) (cwd : List (List Nat)) (config : List Nat → Option (List Nat))
    (pats : List (List Nat)) : Out Resp :=
  match config (bytesOf "document_root"), pats with
  | some root, [pat] =>
    match realpath fs cwd
        (fileName root ((config (bytesOf "index_file")).getD (bytesOf "index.html")) pat) with
    | none => .ok .notFound
    | some p =>
      if root.isPrefixOf (render p) = false then .ok .denied
      else do
        let ok ← behindRoot (render p) root.length
        if ok then sendFile fs config p else .ok .denied
  | _, _ => .ok .notFound

/-! ### Lemmas -/

/-- A name between slashes. -/
def Name (n : List Nat) : Prop := n ≠ [] ∧ 47 ∉ n

theorem cut_names (s cur : List Nat) (h : 47 ∉ cur) : ∀ n ∈ cut s cur, Name n := by
  induction s generalizing cur with
  | nil =>
    intro n hn; unfold cut at hn
    split at hn
    · simp at hn
    · simp at hn; subst hn; exact ⟨by assumption, h⟩
  | cons x t ih =>
    intro n hn; unfold cut at hn
    split at hn
    · split at hn
      · exact ih [] (by simp) n hn
      · rcases List.mem_cons.1 hn with e | e
        · subst e; exact ⟨by assumption, h⟩
        · exact ih [] (by simp) n e
    · exact ih _ (by simp; exact ⟨h, by omega⟩) n hn

/-- Directories all the way. -/
def Dirs (fs : FS) (p : List (List Nat)) : Prop :=
  ∀ q, q <+: p → q ≠ [] → fs q = some .dir

theorem Dirs.dropLast {fs : FS} {p : List (List Nat)} (h : Dirs fs p) : Dirs fs p.dropLast :=
  fun q hq => h q (hq.trans (List.dropLast_prefix p))

theorem Dirs.snoc {fs : FS} {p : List (List Nat)} {n : List Nat} (h : Dirs fs p)
    (hn : fs (p ++ [n]) = some .dir) : Dirs fs (p ++ [n]) := by
  intro q hq hne
  rcases List.prefix_concat_iff.1 hq with e | e
  · subst e; exact hn
  · exact h q e hne

/-- What a resolved path is like: real names and directories on the way. -/
def Good (fs : FS) (p : List (List Nat)) : Prop := (∀ n ∈ p, Name n) ∧ Dirs fs p.dropLast

theorem go_good {fs : FS} {next} (hnext : ∀ c w p, (∀ n ∈ c, Name n) → (∀ n ∈ w, Name n) →
      Dirs fs c → next c w = some p → Good fs p) :
    ∀ (w c p : List (List Nat)), (∀ n ∈ c, Name n) → (∀ n ∈ w, Name n) → Dirs fs c →
      go fs next c w = some p → Good fs p := by
  intro w
  induction w with
  | nil =>
    intro c p hc _ hd h
    simp only [go, Option.some.injEq] at h; subst h
    exact ⟨hc, hd.dropLast⟩
  | cons n r ih =>
    intro c p hc hw hd h
    have hr : ∀ m ∈ r, Name m := fun m hm => hw m (List.mem_cons_of_mem _ hm)
    have hcn : ∀ m ∈ c ++ [n], Name m := by
      intro m hm
      rcases List.mem_append.1 hm with e | e
      · exact hc m e
      · simp at e; subst e; exact hw m (by simp)
    unfold go at h
    split at h
    · exact ih c p hc hr hd h
    · split at h
      · exact ih _ p (fun m hm => hc m ((List.dropLast_prefix c).subset hm)) hr hd.dropLast h
      · split at h
        · simp at h
        · rename_i e
          exact ih _ p hcn hr (hd.snoc e) h
        · split at h
          · simp only [Option.some.injEq] at h; subst h
            exact ⟨hcn, by simpa using hd⟩
          · simp at h
        · split at h
          · simp at h
          · refine hnext _ _ p ?_ ?_ ?_ h
            · split
              · simp
              · exact hc
            · intro m hm
              rcases List.mem_append.1 hm with e | e
              · exact cut_names _ [] (by simp) m e
              · exact hr m e
            · split
              · intro q hq hne; simp at hq; exact absurd hq hne
              · exact hd

theorem walk_good {fs : FS} (k : Nat) : ∀ (c w p : List (List Nat)), (∀ n ∈ c, Name n) →
    (∀ n ∈ w, Name n) → Dirs fs c → walk fs k c w = some p → Good fs p := by
  induction k with
  | zero =>
    intro c w p hc hw hd h
    exact go_good (next := fun _ _ => none) (by simp) w c p hc hw hd h
  | succ k ih =>
    intro c w p hc hw hd h
    exact go_good (next := walk fs k) ih w c p hc hw hd h

theorem realpath_good {fs : FS} {cwd p : List (List Nat)} {f : List Nat}
    (hc : ∀ n ∈ cwd, Name n) (hd : Dirs fs cwd) (h : realpath fs cwd f = some p) :
    Good fs p ∧ (render p).length < pathMax := by
  unfold realpath at h
  split at h
  · simp at h
  · split at h
    · simp at h
    · rename_i q e
      split at h
      · simp only [Option.some.injEq] at h; subst h
        refine ⟨walk_good 40 _ _ _ ?_ (cut_names _ [] (by simp)) ?_ e, by assumption⟩
        · split
          · simp
          · exact hc
        · split
          · intro q hq hne; simp at hq; exact absurd hq hne
          · exact hd
      · simp at h

theorem flat_cut {p : List (List Nat)} (hp : ∀ n ∈ p, Name n) {A B : List Nat}
    (h : (p.map (47 :: ·)).flatten = A ++ 47 :: B) :
    ∃ q r, p = q ++ r ∧ r ≠ [] ∧ (q.map (47 :: ·)).flatten = A := by
  induction p generalizing A with
  | nil => simp at h
  | cons n p ih =>
    cases A with
    | nil => exact ⟨[], n :: p, rfl, by simp, rfl⟩
    | cons a A =>
      simp only [List.map_cons, List.flatten_cons, List.cons_append, List.cons.injEq] at h
      obtain ⟨ha, h⟩ := h
      subst ha
      have h47 : 47 ∉ n := (hp n (by simp)).2
      rcases List.append_eq_append_iff.1 h with ⟨x, e1, e2⟩ | ⟨x, e1, e2⟩
      · -- A = n ++ x
        obtain ⟨q, r, e, hr, hq⟩ := ih (fun m hm => hp m (by simp [hm])) e2
        exact ⟨n :: q, r, by simp [e], hr, by simp [hq, e1]⟩
      · cases x with
        | nil =>
          simp at e1 e2
          exact ⟨[n], p, rfl, by rintro rfl; simp at e2, by simp [e1]⟩
        | cons y x =>
          simp only [List.cons_append, List.cons.injEq] at e2
          exact absurd (by rw [e1, ← e2.1]; simp) h47

theorem render_cut {p : List (List Nat)} (hp : ∀ n ∈ p, Name n) {A B : List Nat} (hA : A ≠ [])
    (hB : p ≠ [] ∨ B ≠ [])
    (h : render p = A ++ 47 :: B) : ∃ q r, p = q ++ r ∧ q ≠ [] ∧ r ≠ [] ∧ render q = A := by
  unfold render at h
  split at h
  · cases A with
    | nil => exact absurd rfl hA
    | cons a A => simp at h
  · obtain ⟨q, r, e, hr, hq⟩ := flat_cut hp h
    have hne : q ≠ [] := by rintro rfl; exact hA (by simpa using hq.symm)
    exact ⟨q, r, e, hne, hr, by unfold render; rw [if_neg hne]; exact hq⟩

theorem go_plain {fs : FS} {next} : ∀ (w c : List (List Nat)),
    (∀ n ∈ w, n ≠ [46] ∧ n ≠ [46, 46]) →
    (∀ q, q <+: w → q ≠ [] → q ≠ w → fs (c ++ q) = some .dir) →
    (w ≠ [] → ∃ rd b, fs (c ++ w) = some (.file rd b)) →
    go fs next c w = some (c ++ w) := by
  intro w
  induction w with
  | nil => intro c _ _ _; simp [go]
  | cons n r ih =>
    intro c hw hd hf
    unfold go
    rw [if_neg (hw n (by simp)).1, if_neg (hw n (by simp)).2]
    by_cases hr : r = []
    · subst hr
      obtain ⟨rd, b, e⟩ := hf (by simp)
      rw [e]; simp
    · have e : fs (c ++ [n]) = some .dir :=
        hd [n] (by simp [List.prefix_cons_iff]) (by simp) (by simpa using hr)
      rw [e]
      have := ih (c ++ [n]) (fun m hm => hw m (by simp [hm])) ?_ ?_
      · simpa using this
      · intro q hq hne hqr
        have := hd (n :: q) (by simpa using hq) (by simp) (by simpa using hqr)
        simpa using this
      · intro _
        have := hf (by simp)
        simpa using this

theorem cut_name {n : List Nat} (h : 47 ∉ n) (cur rest : List Nat) :
    cut (n ++ rest) cur = cut rest (cur ++ n) := by
  induction n generalizing cur with
  | nil => simp
  | cons x n ih =>
    simp only [List.mem_cons, not_or] at h
    rw [List.cons_append, cut, if_neg (fun e => h.1 e.symm), ih h.2]
    simp

theorem cut_flat (p : List (List Nat)) (hp : ∀ n ∈ p, Name n) (cur : List Nat) :
    cut (p.map (47 :: ·)).flatten cur = if cur = [] then p else cur :: p := by
  induction p generalizing cur with
  | nil => simp [cut]
  | cons n p ih =>
    have hn := hp n (by simp)
    simp only [List.map_cons, List.flatten_cons, List.cons_append]
    rw [cut, if_pos rfl]
    have : cut (n ++ (List.map (fun x => 47 :: x) p).flatten) [] = n :: p := by
      rw [cut_name hn.2, ih (fun m hm => hp m (by simp [hm]))]
      simp [hn.1]
    rw [this]

theorem cut_render (p : List (List Nat)) (hp : ∀ n ∈ p, Name n) : cut (render p) [] = p := by
  unfold render
  split
  · rename_i e; subst e; simp [cut]
  · rw [cut_flat p hp]; simp

theorem render_append {p q : List (List Nat)} (hp : p ≠ []) (hq : q ≠ []) :
    render (p ++ q) = render p ++ render q := by
  unfold render
  rw [if_neg (by simp [hp]), if_neg hp, if_neg hq]; simp

theorem render_head (p : List (List Nat)) : (render p).head? = some 47 := by
  unfold render
  split
  · rfl
  · cases p with
    | nil => contradiction
    | cons n p => simp

theorem flat_last {p : List (List Nat)} (hp : ∀ n ∈ p, Name n) :
    (p.map (47 :: ·)).flatten.getLast? ≠ some 47 := by
  rcases List.eq_nil_or_concat p with rfl | ⟨q, n, rfl⟩
  · simp
  · have hn := hp n (by simp)
    simp only [List.map_append, List.flatten_append, List.map_cons, List.map_nil,
      List.flatten_cons, List.flatten_nil, List.append_nil, List.concat_eq_append]
    rw [List.getLast?_append]
    rcases List.eq_nil_or_concat n with rfl | ⟨m, x, rfl⟩
    · exact absurd rfl hn.1
    · have : (47 :: m.concat x).getLast? = some x := by
        rw [List.concat_eq_append, ← List.cons_append, List.getLast?_concat]
      rw [this]
      have := hn.2
      simp only [List.concat_eq_append, List.mem_append, List.mem_singleton, not_or] at this
      simp; exact fun e => this.2 e.symm

theorem render_last {p : List (List Nat)} (h : p ≠ []) (hp : ∀ n ∈ p, Name n) :
    (render p).getLast? ≠ some 47 := by
  unfold render; rw [if_neg h]; exact flat_last hp

theorem afterLast_none {c : Nat} {l : List Nat} (h : c ∉ l) : afterLast c l = none := by
  induction l with
  | nil => rfl
  | cons x t ih =>
    simp only [List.mem_cons, not_or] at h
    simp only [afterLast, ih h.2]
    rw [if_neg (fun e => h.1 e.symm)]

theorem afterLast_append {c : Nat} {l : List Nat} (h : c ∉ l) (p : List Nat) :
    afterLast c (p ++ c :: l) = some l := by
  induction p with
  | nil => simp [afterLast, afterLast_none h]
  | cons x t ih => simp [afterLast, ih]

theorem flat_afterLast (p : List (List Nat)) (n : List Nat) (h : 47 ∉ n) :
    afterLast 47 (render (p ++ [n])) = some n := by
  unfold render
  rw [if_neg (by simp)]
  simp only [List.map_append, List.flatten_append, List.map_cons, List.map_nil,
      List.flatten_cons, List.flatten_nil, List.append_nil]
  exact afterLast_append h _

theorem contentType_ok (config : List Nat → Option (List Nat)) {p : List (List Nat)} (h : p ≠ [])
    (hp : ∀ n ∈ p, Name n) : ∃ t, contentType config (render p) = .ok t := by
  rcases List.eq_nil_or_concat p with rfl | ⟨q, n, rfl⟩
  · exact absurd rfl h
  · have hn := hp n (by simp)
    unfold contentType
    rw [List.concat_eq_append, flat_afterLast q n hn.2]
    dsimp only
    cases afterLast 46 n with
    | some e => exact ⟨_, rfl⟩
    | none =>
      cases n with
      | nil => exact absurd rfl hn.1
      | cons x e => exact ⟨_, rfl⟩

theorem charAt_append (D rest : List Nat) (i : Nat) (h : i ≤ rest.length) :
    charAt (D ++ rest) (D.length + i) = .ok (rest.getD i 0) := by
  unfold charAt
  rw [List.length_append]
  split
  · rw [List.getD_eq_getElem?_getD, List.getElem?_append_right (by omega), Nat.add_sub_cancel_left,
      List.getD_eq_getElem?_getD]
  · rw [if_pos (by omega), List.getD_eq_getElem?_getD, List.getElem?_eq_none (by omega)]; rfl

theorem behindRoot_cons (D rest : List Nat) (c : Nat) :
    behindRoot (D ++ c :: rest) D.length = .ok (c == 47 || rest.head? == some 47) := by
  unfold behindRoot
  have h0 := charAt_append D (c :: rest) 0 (by simp)
  have h1 := charAt_append D (c :: rest) 1 (by simp)
  simp only [Nat.add_zero] at h0
  rw [h0, h1]
  simp only [Out.ok_bind, List.getD_cons_zero, List.getD_cons_succ]
  split
  · rename_i e; simp [e]
  · rename_i e
    cases rest with
    | nil => simp [e]
    | cons d rest => simp [e]

theorem behindRoot_nil (D : List Nat) : behindRoot D D.length = .ub := by
  unfold behindRoot charAt
  simp

end Mtev.FileServe
