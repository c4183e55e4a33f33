import Verif.Proof.Uri
import Verif.Spec.Ok

/-!
# Resolving references (C48)

All theorems hold whatever texts the URI parser accepts (`l.valid`).
-/

namespace Html.Props

open Spec

/-- A parser that accepts every text, for the examples. -/
def exLib : UriLib := ⟨fun _ => true⟩

/-- **C48.** Resolving panics exactly when the reference can be parsed and the base cannot, or has no
scheme while the reference has none either. -/
theorem C48_panic_iff (l : UriLib) (reference base : Str) :
    (∃ e, l.resolveReference reference base = .error e) ↔
      l.valid reference = true ∧ (l.valid base = false ∨
        ((splitUri reference).scheme = none ∧ (splitUri base).scheme = none)) := by
  unfold UriLib.resolveReference UriLib.parse
  cases hr : l.valid reference with
  | false => simp
  | true =>
    cases hb : l.valid base with
    | false => simp [unwrap, bind, Except.bind]
    | true =>
      rw [if_pos rfl, if_pos rfl]
      simp only [unwrap, bind, Except.bind]
      cases hs : (splitUri reference).scheme with
      | some x => simp
      | none =>
        cases hbs : (splitUri base).scheme with
        | some x => simp
        | none => simp

/-- An empty base: resolving panics. -/
example : (match exLib.resolveReference b!"x.js" [] with | .error _ => true | .ok _ => false) = true := by decide

/-- **C48.** A reference with a scheme is its own result. -/
theorem C48_absolute (l : UriLib) (reference base : Str) (hb : l.valid base = true)
    (hr : l.valid reference = true) (hs : (splitUri reference).scheme.isSome) :
    l.resolveReference reference base = .ok (some reference) := by
  unfold UriLib.resolveReference UriLib.parse
  rw [if_pos hr, if_pos hb]
  simp [unwrap, bind, Except.bind, hs]

example : exLib.resolveReference b!"data:x" b!"http://h/" = .ok (some b!"data:x") :=
  C48_absolute _ _ _ rfl rfl (by decide)

/-- **C48.** The result of resolving a relative reference has no `.` and no `..` segment in its path. -/
theorem C48_no_dot_segments (l : UriLib) (reference base r : Str)
    (hn : (splitUri reference).scheme = none) (h : l.resolveReference reference base = .ok (some r)) :
    ∀ s ∈ segments (splitUri r).path, ¬ DotSegment s := by
  obtain ⟨scheme, hr, hb, hs⟩ := resolve_relative_inv hn h
  rw [resolve_relative hr hb hn hs] at h
  injection h with h
  injection h with h
  subst h
  obtain ⟨g1, g2⟩ := resolved_rest reference base
  obtain ⟨s1, s2⟩ := splitScheme_some hs
  rw [splitUri_build s1 s2 g1]
  unfold segments
  rw [splitSlash_dropWhile]
  intro s hs
  rw [List.mem_cons] at hs
  rcases hs with rfl | hs
  · simp [DotSegment]
  · exact g2 s hs

example : exLib.resolveReference b!"./../c/./d.js" b!"http://h/a/b/x.html" = .ok (some b!"http://h/a/c/d.js") ∧
    (splitUri b!"./../c/./d.js").scheme = none := ⟨rfl, by decide⟩

/-- **C48.** The result has the scheme of the base, and neither a query nor a fragment. -/
theorem C48_scheme (l : UriLib) (reference base r : Str)
    (hn : (splitUri reference).scheme = none) (h : l.resolveReference reference base = .ok (some r)) :
    (splitUri base).scheme.isSome ∧ (splitUri r).scheme = (splitUri base).scheme ∧
      (splitUri r).query = none ∧ (splitUri r).fragment = none := by
  obtain ⟨scheme, hr, hb, hs⟩ := resolve_relative_inv hn h
  rw [resolve_relative hr hb hn hs] at h
  injection h with h
  injection h with h
  subst h
  obtain ⟨s1, s2⟩ := splitScheme_some hs
  rw [splitUri_build s1 s2 (resolved_rest reference base).1, hs]
  simp

/-- **C48.** The query and the fragment of the reference are lost. -/
theorem C48_query_lost :
    exLib.resolveReference b!"page.html?id=1#top" b!"http://h/a/x.html" = .ok (some b!"http://h/a/page.html") := rfl

/-- **C48.** What a relative reference stands for.  The base has an absolute path whose last segment
is not `.`, and neither query nor fragment.  Starting in the directory of the base (or at the top, for
an absolute path) `.` stays and `..` goes up.  If the walk never goes up beyond the top, the result
consists of scheme, authority, the path that was reached, and a slash if the reference ends with a
slash or a dot. -/
theorem C48_resolved (l : UriLib) (reference base scheme : Str) (out : List Str)
    (hr : l.valid reference = true) (hb : l.valid base = true)
    (hn : (splitUri reference).scheme = none) (hs : (splitUri base).scheme = some scheme)
    (hq : (splitUri base).query = none) (hf : (splitUri base).fragment = none)
    (hp : (splitUri base).path.head? = some 47)
    (hl : (segments (splitUri base).path).getLast? ≠ some b!".")
    (hw : walk (start (splitUri base).path (splitUri reference).path)
      (target (splitUri base).path (splitUri reference).path) = some out) :
    l.resolveReference reference base = .ok (some (scheme ++ b!"://" ++
      ((splitUri reference).authority.getD ((splitUri base).authority.getD [])) ++ pathOf out ++
      (if reference.getLast? = some 47 ∨ reference.getLast? = some 46 then b!"/" else []))) := by
  rw [resolve_relative hr hb hn hs, resolvedPath_eq hq hf hp hl hw]
  have hseg : ∀ s ∈ out, s ≠ [] ∧ 47 ∉ s := by
    refine walk_segments hw ?_ ?_
    · intro s hs
      unfold start at hs
      split at hs
      · rw [Option.mem_toList] at hs
        unfold drive at hs
        split at hs
        · rename_i x l hx
          split at hs
          · simp at hs
            subst hs
            have hm : x ∈ (segments (splitUri base).path).dropLast.filter
                (fun s => s ≠ [] ∧ s ≠ b!".") := by rw [hx]; simp
            have hm2 := List.mem_filter.1 hm
            refine ⟨?_, (splitSlash_mem (List.dropLast_subset _ hm2.1)).1⟩
            have := hm2.2
            simp at this
            exact this.1
          · simp at hs
        · simp at hs
      · cases hs
    · intro s hs
      unfold target at hs
      split at hs
      · exact (splitSlash_mem hs).1
      · rw [List.mem_append] at hs
        rcases hs with hs | hs
        · exact (splitSlash_mem (List.dropLast_subset _ hs)).1
        · exact (splitSlash_mem hs).1
  rw [pathText_dir hseg]
  have ha : resolvedAuthority reference base =
      (splitUri reference).authority.getD ((splitUri base).authority.getD []) := by
    unfold resolvedAuthority
    cases (splitUri reference).authority <;> rfl
  rw [ha]
  simp [refSuffix]

example : walk (start b!"/a/b/x.html" b!"./../c/./d.js") (target b!"/a/b/x.html" b!"./../c/./d.js") =
      some [b!"a", b!"c", b!"d.js"] ∧ pathOf [b!"a", b!"c", b!"d.js"] = b!"/a/c/d.js" ∧
    (splitUri b!"http://h/a/b/x.html").path = b!"/a/b/x.html" ∧
    (splitUri b!"http://h/a/b/x.html").scheme = some b!"http" := by decide

/-- An absolute path stays on the drive of the base. -/
example : walk (start b!"/c:/a/x.html" b!"/d.js") (target b!"/c:/a/x.html" b!"/d.js") =
      some [b!"c:", b!"d.js"] ∧
    exLib.resolveReference b!"/d.js" b!"file:///c:/a/x.html" = .ok (some b!"file:///c:/d.js") :=
  ⟨by decide, rfl⟩

/-- **C48.** Under the same conditions the authority is that of the reference or the base. -/
theorem C48_authority (l : UriLib) (reference base scheme r : Str) (out : List Str)
    (hr : l.valid reference = true) (hb : l.valid base = true)
    (hn : (splitUri reference).scheme = none) (hs : (splitUri base).scheme = some scheme)
    (hq : (splitUri base).query = none) (hf : (splitUri base).fragment = none)
    (hp : (splitUri base).path.head? = some 47)
    (hl : (segments (splitUri base).path).getLast? ≠ some b!".")
    (hw : walk (start (splitUri base).path (splitUri reference).path)
      (target (splitUri base).path (splitUri reference).path) = some out)
    (h : l.resolveReference reference base = .ok (some r)) :
    (splitUri r).authority =
      some ((splitUri reference).authority.getD ((splitUri base).authority.getD [])) := by
  have h2 := C48_resolved l reference base scheme out hr hb hn hs hq hf hp hl hw
  rw [h] at h2
  injection h2 with h2
  injection h2 with h2
  have h3 : resolvedAuthority reference base =
      (splitUri reference).authority.getD ((splitUri base).authority.getD []) := by
    unfold resolvedAuthority
    cases (splitUri reference).authority <;> rfl
  rw [resolve_relative hr hb hn hs] at h
  injection h with h
  injection h with h
  obtain ⟨s1, s2⟩ := splitScheme_some hs
  have ha := resolvedAuthority_mem reference base
  have hx := (resolved_rest reference base).1
  rw [h3] at h ha hx
  generalize (splitUri reference).authority.getD ((splitUri base).authority.getD []) = a at h ha hx h2 ⊢
  have h4 : scheme ++ b!"://" ++ (a ++ (pathText (resolvedPath reference base) ++ refSuffix reference)) =
      scheme ++ b!"://" ++ (a ++ (pathOf out ++
        (if reference.getLast? = some 47 ∨ reference.getLast? = some 46 then b!"/" else []))) := by
    rw [h, h2]; simp only [List.append_assoc]
  have h5 := List.append_cancel_left h4
  rw [← h, splitUri_build s1 s2 hx, h5]
  congr 1
  have h47 : ∃ t, pathOf out = 47 :: t := by
    unfold pathOf
    cases out with
    | nil => exact ⟨[], rfl⟩
    | cons s l => exact ⟨_, rfl⟩
  obtain ⟨t, ht⟩ := h47
  rw [List.takeWhile_append_of_pos (by intro b hb; simpa using (ha b hb).1), ht]
  simp

/-- **C48.** A reference that goes up beyond the top changes the authority: the file is glued to the
host name. -/
theorem C48_authority_changed :
    exLib.resolveReference b!"../x.js" b!"http://host/index.html" = .ok (some b!"http://hostx.js") ∧
    (splitUri b!"http://hostx.js").authority = some b!"hostx.js" := ⟨rfl, by decide⟩

/-- **C48.** So does a reference starting with `./` if the path of the base is empty. -/
theorem C48_authority_changed_empty_path :
    exLib.resolveReference b!"./x.js" b!"http://host" = .ok (some b!"http://hostx.js") := rfl

/-- **C48.** A slash in the query of the base is taken for the end of its path, and a query behind the
slash of a directory hides that slash. -/
theorem C48_query_of_base :
    exLib.resolveReference b!"x.js" b!"http://host/a/b?c=/" = .ok (some b!"http://host/a/b/x.js") ∧
    exLib.resolveReference b!"x.js" b!"http://host/a/b/?c" = .ok (some b!"http://host/a/x.js") := ⟨rfl, rfl⟩

/-- **C48.** A slash is added behind a file whose name ends with a dot, and at the top it is doubled. -/
theorem C48_extra_slash :
    exLib.resolveReference b!"etc." b!"http://host/a" = .ok (some b!"http://host/etc./") ∧
    exLib.resolveReference b!"." b!"http://host/a" = .ok (some b!"http://host//") := ⟨rfl, rfl⟩

end Html.Props
