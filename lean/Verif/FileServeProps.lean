import Verif.FileServe
import Mathlib.Data.List.Infix

/-!
# Serving files (C85)
-/

namespace Mtev.FileServe

/-! ### Specification -/

/-- The path is that of something below the directory with path `D`. -/
def Within (D path : List Nat) : Prop :=
  ∃ rest, rest ≠ [] ∧ path = (if D.getLast? = some 47 then D else D ++ [47]) ++ rest

/-- `p` are the names of a place that is reached through directories only: no `.`-links, and no
symbolic link, lead somewhere else. -/
def Real (fs : FS) (p : List (List Nat)) : Prop :=
  (∀ n ∈ p, n ≠ [] ∧ 47 ∉ n) ∧ ∀ q, q <+: p → q ≠ [] → q ≠ p → fs q = some .dir

/-- No directory has the name of the document root with one character appended. -/
def NoSibling (fs : FS) (D : List Nat) : Prop :=
  ∀ ns c, c ≠ 47 → fs ns = some .dir → render ns ≠ D ++ [c]

/-- A working directory. -/
def Cwd (fs : FS) (cwd : List (List Nat)) : Prop :=
  (∀ n ∈ cwd, n ≠ [] ∧ 47 ∉ n) ∧ ∀ q, q <+: cwd → q ≠ [] → fs q = some .dir

/-! ### Confinement -/

theorem Good.real {fs : FS} {p : List (List Nat)} (h : Good fs p) : Real fs p := by
  refine ⟨h.1, fun q hq hne hqp => h.2 q ?_ hne⟩
  obtain ⟨r, e⟩ := hq
  rcases List.eq_nil_or_concat r with rfl | ⟨r', x, rfl⟩
  · exact absurd (by simpa using e) hqp
  · rw [← e, List.concat_eq_append, ← List.append_assoc, List.dropLast_concat]
    exact List.prefix_append _ _

/-- What `serve` did when it sent a file. -/
theorem serve_content {fs : FS} {cwd : List (List Nat)} {config} {pats} {t b D : List Nat}
    (hD : config (bytesOf "document_root") = some D)
    (h : serve fs cwd config pats = .ok (.content t b)) :
    ∃ pat p rd, pats = [pat] ∧
      realpath fs cwd
        (fileName D ((config (bytesOf "index_file")).getD (bytesOf "index.html")) pat) = some p ∧
      p ≠ [] ∧ fs p = some (.file rd b) ∧ (b ≠ [] → rd = true) ∧
      contentType config (render p) = .ok t ∧
      ∃ rest, render p = D ++ rest ∧ (rest[0]? = some 47 ∨ rest[1]? = some 47) := by
  unfold serve at h
  rw [hD] at h
  split at h
  · rename_i root pat e
    simp only [Option.some.injEq] at e; subst e
    split at h
    · simp at h
    · rename_i p hp
      split at h
      · simp at h
      · rename_i hpre
        simp only [Bool.not_eq_false, List.isPrefixOf_iff_prefix] at hpre
        obtain ⟨rest, er⟩ := hpre
        cases rest with
        | nil =>
          rw [List.append_nil] at er
          rw [← er, behindRoot_nil] at h; simp at h
        | cons c rest =>
          rw [← er, behindRoot_cons] at h
          simp only [Out.ok_bind] at h
          split at h
          · rename_i hb
            unfold sendFile at h
            split at h
            · rename_i rd b' hfs
              split at hfs
              · simp at hfs
              · rename_i hpne
                split at h
                · simp at h
                · rename_i hrd
                  cases hct : contentType config (render p) with
                  | ub => simp [hct] at h
                  | abort => simp [hct] at h
                  | ok t' =>
                    rw [hct] at h
                    simp only [Out.ok_bind, Out.ok.injEq, Resp.content.injEq] at h
                    obtain ⟨rfl, rfl⟩ := h
                    refine ⟨pat, p, rd, rfl, hp, hpne, hfs, ?_, hct, c :: rest, er.symm, ?_⟩
                    · intro hc; by_contra hrd'; exact hrd ⟨hc, by simpa using hrd'⟩
                    · simpa [List.head?_eq_getElem?] using hb
            · simp at h
          · simp at h
  · simp at h

/-- C85, confinement: whatever is asked for, and however it is spelled, what is sent is the content
of a real file below the document root, if no directory next to the document root has its name with
one character appended. -/
theorem C85_confined_partial {fs : FS} {cwd : List (List Nat)} {config} {pats} {t b D : List Nat}
    (hcwd : Cwd fs cwd) (hD : config (bytesOf "document_root") = some D)
    (hs : NoSibling fs D) (h : serve fs cwd config pats = .ok (.content t b)) :
    ∃ p rd, Within D (render p) ∧ Real fs p ∧ fs p = some (.file rd b) := by
  obtain ⟨pat, p, rd, -, hp, hne, hfs, -, -, rest, er, h47⟩ := serve_content hD h
  have hg := (realpath_good hcwd.1 hcwd.2 hp).1
  refine ⟨p, rd, ?_, hg.real, hfs⟩
  have hlast := render_last hne hg.1
  cases rest with
  | nil => simp at h47
  | cons c rest =>
    by_cases hDl : D.getLast? = some 47
    · exact ⟨c :: rest, by simp, by rw [if_pos hDl, er]⟩
    · unfold Within
      rw [if_neg hDl]
      by_cases hc : c = 47
      · subst hc
        refine ⟨rest, ?_, by simp [er]⟩
        rintro rfl
        rw [er, List.getLast?_concat] at hlast; exact hlast rfl
      · exfalso
        cases rest with
        | nil => simp [hc] at h47
        | cons d rest =>
          have hd : d = 47 := by simpa [hc] using h47
          subst hd
          obtain ⟨q, r, e, hq, hr, hqr⟩ :=
            render_cut hg.1 (A := D ++ [c]) (B := rest) (by simp) (.inl hne) (by simp [er])
          refine hs q c hc ?_ hqr
          exact hg.real.2 q ⟨r, e.symm⟩ hq (by rw [e]; simpa using hr)

/-- A small file system: `/srv/www/a.css`, `/srv/www/s/x`, `/srv/www/out` (a symbolic link to
`/etc`), `/srv/www2/key`, `/etc/key`. -/
def demo : FS := fun p =>
  if p = [bytesOf "srv"] ∨ p = [bytesOf "srv", bytesOf "www"] ∨ p = [bytesOf "etc"] ∨
     p = [bytesOf "srv", bytesOf "www", bytesOf "s"] then some .dir
  else if p = [bytesOf "srv", bytesOf "www", bytesOf "a.css"] then some (.file true [1, 2])
  else if p = [bytesOf "srv", bytesOf "www", bytesOf "s", bytesOf "x"] then some (.file true [3])
  else if p = [bytesOf "srv", bytesOf "www", bytesOf "out"] then some (.link (bytesOf "/etc"))
  else if p = [bytesOf "etc", bytesOf "key"] then some (.file true [4])
  else none

/-- The same with a directory `/srv/www2` that has a file `key`. -/
def demo2 : FS := fun p =>
  if p = [bytesOf "srv", bytesOf "www2"] then some .dir
  else if p = [bytesOf "srv", bytesOf "www2", bytesOf "key"] then some (.file true [5, 6])
  else demo p

/-- A configuration with a document root. -/
def conf (root : String) : List Nat → Option (List Nat) := fun k =>
  if k = bytesOf "document_root" then some (bytesOf root) else none

theorem demo_cwd : Cwd demo [] := ⟨by simp, by simp⟩

theorem demo_dirs {ns : List (List Nat)} (h : demo ns = some .dir) :
    ns ∈ [[bytesOf "srv"], [bytesOf "srv", bytesOf "www"], [bytesOf "etc"],
      [bytesOf "srv", bytesOf "www", bytesOf "s"]] := by
  unfold demo at h
  split at h
  · rename_i e; simpa using e
  · exfalso
    repeat' split at h
    all_goals simp at h

/-- The hypotheses of `C85_confined_partial` hold of `demo`, and something is served. -/
example : NoSibling demo (bytesOf "/srv/www") ∧ Cwd demo [] ∧
    serve demo [] (conf "/srv/www") [bytesOf "s/../../www//./a.css"] =
      .ok (.content (bytesOf "text/css") [1, 2]) := by
  refine ⟨?_, demo_cwd, by decide +kernel⟩
  intro ns c _ h e
  have hl := congrArg List.length e
  rw [List.length_append, List.length_singleton] at hl
  have hm := demo_dirs h
  simp only [List.mem_cons, List.not_mem_nil, or_false] at hm
  rcases hm with rfl | rfl | rfl | rfl
  · revert hl; decide +kernel
  · revert hl; decide +kernel
  · revert hl; decide +kernel
  · revert hl; decide +kernel

/-- Leaving the document root with `..` or a symbolic link is refused. -/
example : serve demo [] (conf "/srv/www") [bytesOf "../../etc/key"] = .ok .denied ∧
    serve demo [] (conf "/srv/www") [bytesOf "out/key"] = .ok .denied := by decide +kernel

/-- C85 is false of the code in general: the check behind the common beginning
(mtev_rest.c:1322) lets a directory pass whose name is that of the document root with one more
character. -/
theorem C85_sibling_violated :
    serve demo2 [] (conf "/srv/www") [bytesOf "../www2/key"] =
      .ok (.content (bytesOf "application/octet-stream") [5, 6]) ∧
    ∀ p b rd, demo2 p = some (.file rd b) → b = [5, 6] → ¬ Within (bytesOf "/srv/www") (render p) := by
  refine ⟨by decide +kernel, ?_⟩
  intro p b rd h hb hw
  subst hb
  have hp : p = [bytesOf "srv", bytesOf "www2", bytesOf "key"] := by
    unfold demo2 demo at h
    repeat' split at h
    all_goals first | assumption | (simp at h)
  subst hp
  obtain ⟨rest, -, e⟩ := hw
  have := congrArg (fun l => l[8]?) e
  rw [if_neg (by decide +kernel)] at this
  revert this
  generalize rest = r
  have : (render [bytesOf "srv", bytesOf "www2", bytesOf "key"])[8]? = some 50 := by decide +kernel
  rw [this]
  intro h
  rw [List.getElem?_append_left (by decide +kernel)] at h
  revert h; decide +kernel

/-! ### What is there is served -/

/-- A name that is the name of an entry. -/
def Plain (n : List Nat) : Prop := n ≠ [] ∧ 47 ∉ n ∧ n ≠ bytesOf "." ∧ n ≠ bytesOf ".."

instance (n : List Nat) : Decidable (Plain n) := by unfold Plain; infer_instance

theorem serve_real {fs : FS} {cwd : List (List Nat)} {config} {R P : List (List Nat)}
    {pat b : List Nat} (hR : R ≠ []) (hP : P ≠ []) (hn : ∀ n ∈ R ++ P, Plain n)
    (hd : ∀ q, q <+: R ++ P → q ≠ [] → q ≠ R ++ P → fs q = some .dir)
    (hf : fs (R ++ P) = some (.file true b))
    (hroot : config (bytesOf "document_root") = some (render R))
    (hlen : (render (R ++ P)).length < pathMax)
    (hname : fileName (render R) ((config (bytesOf "index_file")).getD (bytesOf "index.html")) pat =
      render (R ++ P)) :
    ∃ t, serve fs cwd config [pat] = .ok (.content t b) := by
  have hN : ∀ n ∈ R ++ P, Name n := fun n h => ⟨(hn n h).1, (hn n h).2.1⟩
  have hne : R ++ P ≠ [] := by simp [hR]
  have hw : walk fs 40 [] (R ++ P) = some (R ++ P) := by
    have := go_plain (fs := fs) (next := walk fs 39) (R ++ P) []
      (fun n h => ⟨(hn n h).2.2.1, (hn n h).2.2.2⟩) (by simpa using hd) (fun _ => ⟨true, b, hf⟩)
    rw [List.nil_append] at this
    exact this
  have hrp : realpath fs cwd (render (R ++ P)) = some (R ++ P) := by
    unfold realpath
    have h0 : render (R ++ P) ≠ [] := by
      intro e; have := render_head (R ++ P); rw [e] at this; simp at this
    rw [if_neg h0, render_head, if_pos rfl, cut_render _ hN, hw]
    simp only
    rw [if_pos hlen]
  obtain ⟨t, ht⟩ := contentType_ok config hne hN
  refine ⟨t, ?_⟩
  unfold serve
  rw [hroot]
  simp only
  rw [hname, hrp]
  simp only
  have happ := render_append hR hP
  have h1 : (render R).isPrefixOf (render (R ++ P)) = true := by
    rw [List.isPrefixOf_iff_prefix, happ]; exact List.prefix_append _ _
  rw [if_neg (by rw [h1]; simp)]
  have h2 : behindRoot (render (R ++ P)) (render R).length = .ok true := by
    rw [happ]
    cases hp : render P with
    | nil => have := render_head P; rw [hp] at this; simp at this
    | cons c rest =>
      have := render_head P
      rw [hp] at this; simp at this
      rw [behindRoot_cons, this]; simp
  rw [h2]
  simp only [Out.ok_bind, if_true]
  unfold sendFile
  rw [if_neg hne, hf]
  simp only
  rw [if_neg (by simp), ht]
  simp

theorem slash_join {P : List (List Nat)} (hP : P ≠ []) : 47 :: [47].intercalate P = render P := by
  unfold render
  rw [if_neg hP]
  induction P with
  | nil => contradiction
  | cons a P ih =>
    cases P with
    | nil => simp [List.intercalate]
    | cons c P =>
      have := ih (by simp)
      simp only [List.map_cons, List.flatten_cons] at this ⊢
      rw [← this]
      simp [List.intercalate]

/-- C85, availability: with the document root given by its real path (without a slash at the end),
every readable file below it is sent, whole, to whoever names it. -/
theorem C85_served_partial {fs : FS} {cwd : List (List Nat)} {config} {R P : List (List Nat)}
    {b : List Nat} (hR : R ≠ []) (hP : P ≠ []) (hn : ∀ n ∈ R ++ P, Plain n)
    (hd : ∀ q, q <+: R ++ P → q ≠ [] → q ≠ R ++ P → fs q = some .dir)
    (hf : fs (R ++ P) = some (.file true b))
    (hroot : config (bytesOf "document_root") = some (render R))
    (hlen : (render (R ++ P)).length < 4096) :
    ∃ t, serve fs cwd config [[47].intercalate P] = .ok (.content t b) := by
  have hN : ∀ n ∈ R ++ P, Name n := fun n h => ⟨(hn n h).1, (hn n h).2.1⟩
  refine serve_real hR hP hn hd hf hroot hlen ?_
  unfold fileName
  rw [slash_join hP, ← render_append hR hP]
  rw [List.take_of_length_le (by unfold pathMax; omega)]
  simp only
  rw [if_neg (render_last (by simp [hR]) hN)]

/-- C85: a request for a directory, with a slash at its end, is answered with its index file. -/
theorem C85_index_partial {fs : FS} {cwd : List (List Nat)} {config} {R P : List (List Nat)}
    {idx b : List Nat} (hR : R ≠ []) (hn : ∀ n ∈ R ++ (P ++ [idx]), Plain n)
    (hd : ∀ q, q <+: R ++ (P ++ [idx]) → q ≠ [] → q ≠ R ++ (P ++ [idx]) → fs q = some .dir)
    (hf : fs (R ++ (P ++ [idx])) = some (.file true b))
    (hroot : config (bytesOf "document_root") = some (render R))
    (hidx : config (bytesOf "index_file") = some idx ∨
      config (bytesOf "index_file") = none ∧ idx = bytesOf "index.html")
    (hlen : (render (R ++ (P ++ [idx]))).length < 4096) :
    ∃ t, serve fs cwd config [(P.map (· ++ [47])).flatten] = .ok (.content t b) := by
  refine serve_real hR (by simp) hn hd hf hroot hlen ?_
  have hi : (config (bytesOf "index_file")).getD (bytesOf "index.html") = idx := by
    rcases hidx with h | ⟨h, rfl⟩ <;> rw [h] <;> rfl
  rw [hi]
  have hflat : ∀ Q : List (List Nat), 47 :: (Q.map (· ++ [47])).flatten =
      (Q.map (47 :: ·)).flatten ++ [47] := by
    intro Q
    induction Q with
    | nil => rfl
    | cons n Q ih => simp only [List.map_cons, List.flatten_cons, List.append_assoc,
        List.cons_append, List.nil_append]; rw [← ih]
  have hr : render (R ++ (P ++ [idx])) =
      (render R ++ ((P.map (47 :: ·)).flatten ++ [47])) ++ idx := by
    unfold render
    rw [if_neg (by simp [hR]), if_neg hR]
    simp
  have hl : (render R ++ ((P.map (47 :: ·)).flatten ++ [47])).length + idx.length < 4096 := by
    rw [hr, List.length_append] at hlen; exact hlen
  unfold fileName
  rw [hflat]
  have h1 : (render R ++ ((P.map (47 :: ·)).flatten ++ [47])).take (pathMax - 1) =
      render R ++ ((P.map (47 :: ·)).flatten ++ [47]) :=
    List.take_of_length_le (by unfold pathMax; omega)
  rw [h1]
  simp only
  rw [if_pos (by simp), List.take_of_length_le (by unfold pathMax; omega), hr]

/-- The hypotheses of `C85_served_partial` hold of `/srv/www` and `s/x` in `demo`. -/
example : ∃ t, serve demo [] (conf "/srv/www") [bytesOf "s/x"] = .ok (.content t [3]) := by
  have h := C85_served_partial (fs := demo) (cwd := []) (config := conf "/srv/www")
    (R := [bytesOf "srv", bytesOf "www"]) (P := [bytesOf "s", bytesOf "x"]) (b := [3])
    (by simp) (by simp) (by decide +kernel) ?_ (by decide +kernel) (by decide +kernel)
    (by decide +kernel)
  · have e : [47].intercalate [bytesOf "s", bytesOf "x"] = bytesOf "s/x" := by decide +kernel
    rwa [e] at h
  · intro q hq h1 h2
    have hall : ∀ q ∈ ([bytesOf "srv", bytesOf "www"] ++ [bytesOf "s", bytesOf "x"]).inits,
        q ≠ [] → q ≠ [bytesOf "srv", bytesOf "www"] ++ [bytesOf "s", bytesOf "x"] →
        demo q = some .dir := by decide +kernel
    exact hall q ((List.mem_inits _ _).2 hq) h1 h2

/-- C85 is false of the code for a document root written with a slash at its end: the file that is
served from `/srv/www` is refused from `/srv/www/`. -/
theorem C85_trailing_slash_violated :
    serve demo [] (conf "/srv/www") [bytesOf "a.css"] = .ok (.content (bytesOf "text/css") [1, 2]) ∧
    serve demo [] (conf "/srv/www/") [bytesOf "a.css"] = .ok .denied := by decide +kernel

/-! ### What is elsewhere is refused -/

/-- C85: a name that leads to a place outside the document root is refused, if that place is not
in a directory with the name of the document root and one more character. -/
theorem C85_refused_partial {fs : FS} {cwd : List (List Nat)} {config} {pat D : List Nat}
    {p : List (List Nat)} (hcwd : Cwd fs cwd) (hD : config (bytesOf "document_root") = some D)
    (hp : realpath fs cwd
      (fileName D ((config (bytesOf "index_file")).getD (bytesOf "index.html")) pat) = some p)
    (hout : ¬ Within D (render p)) (hself : render p ≠ D) (hDne : D ≠ []) (hs : NoSibling fs D) :
    serve fs cwd config [pat] = .ok .denied := by
  have hg := (realpath_good hcwd.1 hcwd.2 hp).1
  unfold serve
  rw [hD]
  simp only
  rw [hp]
  simp only
  split
  · rfl
  · rename_i hpre
    simp only [Bool.not_eq_false, List.isPrefixOf_iff_prefix] at hpre
    obtain ⟨rest, er⟩ := hpre
    cases rest with
    | nil => exact absurd (by simpa using er.symm) hself
    | cons c rest =>
      rw [← er, behindRoot_cons]
      simp only [Out.ok_bind]
      have hDl : D.getLast? ≠ some 47 := by
        intro e; exact hout ⟨c :: rest, by simp, by rw [if_pos e, er]⟩
      have hc : c ≠ 47 := by
        rintro rfl
        by_cases hr : rest = []
        · subst hr
          by_cases hpe : p = []
          · subst hpe
            cases D with
            | nil => exact hDne rfl
            | cons d D => simp [render] at er
          · have := render_last hpe hg.1
            rw [← er] at this; simp at this
        · exact hout ⟨rest, hr, by rw [if_neg hDl, ← er]; simp⟩
      split
      · rename_i hb
        exfalso
        cases rest with
        | nil => simp [hc] at hb
        | cons d rest =>
          have hd : d = 47 := by simpa [hc] using hb
          subst hd
          have hpe : p ≠ [] := by
            rintro rfl
            have := congrArg List.length er
            simp [render] at this
            omega
          obtain ⟨q, r, e, hq, hr, hqr⟩ :=
            render_cut hg.1 (A := D ++ [c]) (B := rest) (by simp) (.inl hpe) (by simp [← er])
          refine hs q c hc ?_ hqr
          exact hg.real.2 q ⟨r, e.symm⟩ hq (by rw [e]; simpa using hr)
      · rfl

/-- A link out of the document root meets the hypotheses of `C85_refused_partial`. -/
example : realpath demo [] (bytesOf "/srv/www/out/key") = some [bytesOf "etc", bytesOf "key"] ∧
    serve demo [] (conf "/srv/www") [bytesOf "out/key"] = .ok .denied := by decide +kernel

/-- C85: a name that leads nowhere (something on the way is missing or is no directory, or there are
too many links) is answered as not found, and so is every request when no document root is set. -/
theorem C85_missing {fs : FS} {cwd : List (List Nat)} {config} {pat : List Nat} :
    (∀ D, config (bytesOf "document_root") = some D →
      realpath fs cwd
        (fileName D ((config (bytesOf "index_file")).getD (bytesOf "index.html")) pat) = none →
      serve fs cwd config [pat] = .ok .notFound) ∧
    (config (bytesOf "document_root") = none → serve fs cwd config [pat] = .ok .notFound) := by
  constructor
  · intro D hD hp
    simp [serve, hD, hp]
  · intro hD
    simp [serve, hD]

example : realpath demo [] (bytesOf "/srv/www/nothing") = none ∧
    serve demo [] (conf "/srv/www") [bytesOf "nothing"] = .ok .notFound := by decide +kernel

/-! ### Defined behaviour -/

/-- C85: serving has a defined outcome for every request that does not lead to the document root
itself. -/
theorem C85_defined_partial {fs : FS} {cwd : List (List Nat)} {config} {pats : List (List Nat)}
    (hcwd : Cwd fs cwd)
    (hself : ∀ D pat p, config (bytesOf "document_root") = some D → pats = [pat] →
      realpath fs cwd
        (fileName D ((config (bytesOf "index_file")).getD (bytesOf "index.html")) pat) = some p →
      render p ≠ D) :
    ∃ r, serve fs cwd config pats = .ok r := by
  unfold serve
  split
  · rename_i D pat hD
    split
    · exact ⟨_, rfl⟩
    · rename_i p hp
      have hg := (realpath_good hcwd.1 hcwd.2 hp).1
      split
      · exact ⟨_, rfl⟩
      · rename_i hpre
        simp only [Bool.not_eq_false, List.isPrefixOf_iff_prefix] at hpre
        obtain ⟨rest, er⟩ := hpre
        cases rest with
        | nil => exact absurd (by simpa using er.symm) (hself D pat p hD rfl hp)
        | cons c rest =>
          rw [← er, behindRoot_cons]
          simp only [Out.ok_bind]
          split
          · unfold sendFile
            split
            · rename_i hfs
              split
              · exact ⟨_, rfl⟩
              · have hpe : p ≠ [] := by rintro rfl; simp at hfs
                obtain ⟨t, ht⟩ := contentType_ok config hpe hg.1
                rw [ht]; exact ⟨_, rfl⟩
            · exact ⟨_, rfl⟩
          · exact ⟨_, rfl⟩
  · exact ⟨_, rfl⟩

/-- C85 is false of the code for a request that leads to the document root itself: the character
behind the end of the resolved path is looked at (mtev_rest.c:1322). -/
theorem C85_dot_violated : serve demo [] (conf "/srv/www") [bytesOf "."] = .ub := by decide +kernel

/-! ### Content types -/

/-- The types of names with these extensions when nothing is configured. -/
def knownTypes : List (String × String) :=
  [("html", "text/html"), ("htm", "text/html"), ("js", "text/javascript"), ("css", "text/css"),
   ("ico", "image/x-icon"), ("gif", "image/gif"), ("png", "image/png"), ("jpg", "image/jpg"),
   ("jpeg", "image/jpg"), ("svg", "image/svg+xml"), ("json", "application/json"),
   ("eot", "application/vnd.ms-fontobject"), ("ttf", "application/octet-stream"),
   ("woff", "application/font-woff"), ("woff2", "application/font-woff2")]

/-- The type of files with extension `ext`: as configured, else a known one, else unspecific. -/
def TypeFor (config : List Nat → Option (List Nat)) (ext t : List Nat) : Prop :=
  (config (bytesOf "mime_type_" ++ ext) = some t) ∨
  (config (bytesOf "mime_type_" ++ ext) = none ∧
    ((∃ e ∈ knownTypes, bytesOf e.1 = ext ∧ bytesOf e.2 = t) ∨
     ((∀ e ∈ knownTypes, bytesOf e.1 ≠ ext) ∧ t = bytesOf "application/octet-stream")))

theorem lookup_known (ext : List Nat) : 
    (∃ e ∈ knownTypes, bytesOf e.1 = ext ∧
      bytesOf e.2 = (mimeDefaults.lookup ext).getD (bytesOf "application/octet-stream")) ∨
    ((∀ e ∈ knownTypes, bytesOf e.1 ≠ ext) ∧
      (mimeDefaults.lookup ext).getD (bytesOf "application/octet-stream") =
        bytesOf "application/octet-stream") := by
  by_cases h : ∃ e ∈ knownTypes, bytesOf e.1 = ext
  · left
    obtain ⟨e, he, rfl⟩ := h
    refine ⟨e, he, rfl, ?_⟩
    revert e; decide +kernel
  · right
    push Not at h
    refine ⟨h, ?_⟩
    have : mimeDefaults.lookup ext = none := by
      have hm : mimeDefaults = knownTypes.map (fun e => (bytesOf e.1, bytesOf e.2)) := by
        decide +kernel
      rw [hm, List.lookup_eq_none_iff]
      intro p hp
      obtain ⟨e, he, rfl⟩ := List.mem_map.1 hp
      simpa using fun x => h e he x.symm
    rw [this]; rfl

theorem typeOf_spec (config : List Nat → Option (List Nat)) (ext : List Nat)
    (h : ext.length ≤ 4085) : TypeFor config ext (typeOf config ext) := by
  have hl : (bytesOf "mime_type_").length = 10 := by decide +kernel
  unfold TypeFor typeOf
  rw [List.take_of_length_le (by rw [List.length_append, hl]; unfold pathMax; omega)]
  cases hc : config (bytesOf "mime_type_" ++ ext) with
  | some t => left; rfl
  | none => right; exact ⟨rfl, lookup_known ext⟩

/-- C85: what is sent is a file, and if the last name of its path has an extension, the type is the
one for that extension. -/
theorem C85_type_partial {fs : FS} {cwd : List (List Nat)} {config} {pats} {t b D : List Nat}
    (hcwd : Cwd fs cwd) (hD : config (bytesOf "document_root") = some D)
    (h : serve fs cwd config pats = .ok (.content t b)) :
    ∃ q n rd, Real fs (q ++ [n]) ∧ fs (q ++ [n]) = some (.file rd b) ∧
      ∀ base ext, n = base ++ bytesOf "." ++ ext → 46 ∉ ext → n.length ≤ 255 → TypeFor config ext t := by
  obtain ⟨pat, p, rd, -, hp, hne, hfs, -, ht, -⟩ := serve_content hD h
  have hg := (realpath_good hcwd.1 hcwd.2 hp).1
  rcases List.eq_nil_or_concat p with rfl | ⟨q, n, rfl⟩
  · exact absurd rfl hne
  · rw [List.concat_eq_append] at *
    refine ⟨q, n, rd, hg.real, hfs, ?_⟩
    intro base ext hn h46 hl
    have hdot : bytesOf "." = [46] := by decide +kernel
    rw [hdot, List.append_assoc, List.singleton_append] at hn
    have e : contentType config (render (q ++ [n])) = .ok (typeOf config ext) := by
      unfold contentType
      rw [flat_afterLast q n (hg.1 n (by simp)).2]
      simp only
      rw [hn, afterLast_append h46]
    rw [e] at ht
    simp only [Out.ok.injEq] at ht
    rw [← ht]
    refine typeOf_spec config ext ?_
    have := congrArg List.length hn
    simp at this; omega

/-- A file `/d/xhtml`. -/
def demo3 : FS := fun p =>
  if p = [bytesOf "d"] then some .dir
  else if p = [bytesOf "d", bytesOf "xhtml"] then some (.file true [60]) else none

/-- C85 is false of the code for names without an extension: the rest of the name behind its first
character is taken for one (mtev_rest.c:1353-1358). -/
theorem C85_type_violated : serve demo3 [] (conf "/d") [bytesOf "xhtml"] =
    .ok (.content (bytesOf "text/html") [60]) := by decide +kernel

end Mtev.FileServe
