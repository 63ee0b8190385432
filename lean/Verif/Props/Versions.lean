import Verif.Props.Convert
/-! # C186: images that change while a conversion reads them -/
namespace Verif.Conv
open Verif.Py Verif.Header Verif.ViewHdr Verif.Map Verif.Files

variable {α P : Type}

theorem finish_write {env : Env α P} {r : Except PyErr (List Str × P)} {f : File P} (h : finish env r = .write f) :
    ∃ hd px, r = .ok (hd, px) ∧ encode env hd px = .ok f := by
  match r with
  | .error e => cases h
  | .ok (hd, px) =>
    match he : encode env hd px with
    | .error e => simp only [finish, he] at h; cases h
    | .ok g =>
      simp only [finish, he] at h
      injection h with h
      subst h
      exact ⟨hd, px, rfl, he⟩

theorem bind_ok {β γ : Type} {r : Except PyErr β} {k : β → Except PyErr γ} {c : γ} (h : r.bind k = .ok c) :
    ∃ b, r = .ok b ∧ k b = .ok c := by
  cases r with
  | error e => cases h
  | ok b => exact ⟨b, rfl, h⟩

theorem map_ok {β γ : Type} {r : Except PyErr β} {k : β → γ} {c : γ} (h : r.map k = .ok c) : ∃ b, r = .ok b ∧ k b = c := by
  cases r with
  | error e => cases h
  | ok b => injection h with h; exact ⟨b, rfl, h⟩

theorem has_open (path : Str) : has "cannot open".toList (path ++ ": cannot open\n".toList) = true := by
  rw [has_iff]
  exact ⟨path ++ ": ".toList, "\n".toList, by simp⟩

theorem hdrHeader_ok {path : Str} {b : Option (File P)} {hd : List Str} (h : hdrHeader path b = .ok hd) :
    ∃ lb pb, b = some (.image lb pb) ∧ hd = headerLines (getinfoText path lb) := by
  unfold hdrHeader at h
  split_ifs at h with h1 h2
  injection h with h
  rcases b with _ | b
  · exact absurd (has_open path) h2
  · cases b with
    | blank => exact absurd (show has "bad header!".toList "bad header!\n".toList = true by decide +kernel) h1
    | image lb pb => exact ⟨lb, pb, rfl, h.symm⟩

/-- a picture has been read from what the two processes saw -/
theorem readImage_ok {path : Str} {a b : Option (File P)} {px : P} {hd : List Str} (h : readImage path a b = .ok (px, hd)) :
    (∃ la, a = some (.image la px)) ∧ ∃ lb pb, b = some (.image lb pb) ∧ hd = headerLines (getinfoText path lb) := by
  unfold readImage at h
  obtain ⟨p, h1, h2⟩ := bind_ok h
  obtain ⟨h', h3, h4⟩ := map_ok h2
  injection h4 with h4 h5
  subst h4 h5
  refine ⟨?_, hdrHeader_ok h3⟩
  rcases a with _ | a
  · cases h1
  · cases a with
    | blank => cases h1
    | image la p => injection h1 with h1; subst h1; exact ⟨la, rfl⟩

theorem encode_px {env : Env α P} {hd : List Str} {px : P} {f : File P} (h : encode env hd px = .ok f) :
    ∃ lines, f = .image lines px := by
  unfold encode at h
  obtain ⟨argv, -, h⟩ := map_ok h
  exact ⟨_, h.symm⟩

/-- **C186** square to angular: the pixels come of what the first process saw, the header of what the second saw, and both saw
a complete picture -/
theorem C186_uv2ang (env : Env α P) (conv : P → Except PyErr P) (stdout : Bool) (path : Str) (seen : List (Option (File P)))
    (f : File P) (h : (uv2angJob env conv stdout path).plan seen = .write f) :
    ∃ la px lb pb img lines, saw seen 0 = some (.image la px) ∧ saw seen 1 = some (.image lb pb) ∧ conv px = .ok img ∧
      encode env (headerLines (getinfoText path lb)) img = .ok f ∧ f = .image lines img := by
  obtain ⟨hd, img, h1, h2⟩ := finish_write h
  obtain ⟨⟨px, hd'⟩, h3, h4⟩ := bind_ok h1
  obtain ⟨img', h5, h6⟩ := map_ok h4
  cases h6
  obtain ⟨⟨la, ha⟩, lb, pb, hb, rfl⟩ := readImage_ok h3
  obtain ⟨lines, hf⟩ := encode_px h2
  exact ⟨la, px, lb, pb, img, lines, ha, hb, h5, h2, hf⟩

/-- **C186** angular to square: the view comes of what the first two processes saw, the pixels of the third, the header of the
fourth -/
theorem C186_ang2uv (env : Env α P) (conv : View → P → Except PyErr P) (useview stdout : Bool) (path : Str)
    (seen : List (Option (File P))) (f : File P) (h : (ang2uvJob env conv useview stdout path).plan seen = .write f) :
    ∃ v la px lb pb img lines, ang2uvView env useview path (saw seen 0) (saw seen 1) = .ok v ∧
      saw seen 2 = some (.image la px) ∧ saw seen 3 = some (.image lb pb) ∧ conv v px = .ok img ∧
      encode env (headerLines (getinfoText path lb)) img = .ok f ∧ f = .image lines img := by
  obtain ⟨hd, img, h1, h2⟩ := finish_write h
  obtain ⟨v, hv, h1⟩ := bind_ok h1
  obtain ⟨⟨px, hd'⟩, h3, h4⟩ := bind_ok h1
  obtain ⟨img', h5, h6⟩ := map_ok h4
  cases h6
  obtain ⟨⟨la, ha⟩, lb, pb, hb, rfl⟩ := readImage_ok h3
  obtain ⟨lines, hf⟩ := encode_px h2
  exact ⟨v, la, px, lb, pb, img, lines, hv, ha, hb, h5, h2, hf⟩

/-- **C186** between equisolid and angular: pixels, header, and the view angle of the last two -/
theorem C186_solid (env : Env α P) (conv : Bool → ℝ → P → Except PyErr P) (reverse : Bool) (va : Option ℝ) (stdout : Bool)
    (path : Str) (seen : List (Option (File P))) (f : File P)
    (h : (solidJob env conv reverse va stdout path).plan seen = .write f) :
    ∃ a la px lb pb img lines, saw seen 0 = some (.image la px) ∧ saw seen 1 = some (.image lb pb) ∧
      solidAngle env va path (saw seen 2) (saw seen 3) = .ok a ∧ conv reverse a px = .ok img ∧
      encode env (headerLines (getinfoText path lb) ++ [solidHeader env a]) img = .ok f ∧ f = .image lines img := by
  obtain ⟨hd, img, h1, h2⟩ := finish_write h
  obtain ⟨⟨px, hd'⟩, h3, h4⟩ := bind_ok h1
  obtain ⟨a, hv, h4⟩ := bind_ok h4
  obtain ⟨img', h5, h6⟩ := map_ok h4
  cases h6
  obtain ⟨⟨la, ha⟩, lb, pb, hb, rfl⟩ := readImage_ok h3
  obtain ⟨lines, hf⟩ := encode_px h2
  exact ⟨a, la, px, lb, pb, img, lines, ha, hb, hv, h5, h2, hf⟩

/-- **C186** aligning -/
theorem C186_rotate (env : Env α P) (conv : P → Except PyErr P) (note : Str) (rotate : ℚ) (center : Option (List ℤ))
    (first stdout : Bool) (path : Str) (seen : List (Option (File P))) (f : File P)
    (h : (rotateJob env conv note rotate center first stdout path).plan seen = .write f) :
    ∃ la px lb pb img lines, saw seen 0 = some (.image la px) ∧ saw seen 1 = some (.image lb pb) ∧ conv px = .ok img ∧
      encode env (headerLines (getinfoText path lb) ++ [note]) img = .ok f ∧ f = .image lines img := by
  match hn : Names.rotName rotate center first path with
  | .error e => unfold rotateJob at h; rw [hn] at h; cases h
  | .ok o =>
    unfold rotateJob at h
    rw [hn] at h
    obtain ⟨hd, img, h1, h2⟩ := finish_write h
    obtain ⟨⟨px, hd'⟩, h3, h4⟩ := bind_ok h1
    obtain ⟨img', h5, h6⟩ := map_ok h4
    cases h6
    obtain ⟨⟨la, ha⟩, lb, pb, hb, rfl⟩ := readImage_ok h3
    obtain ⟨lines, hf⟩ := encode_px h2
    exact ⟨la, px, lb, pb, img, lines, ha, hb, h5, h2, hf⟩

/-- **C186** cleaning a header -/
theorem C186_clean (env : Env α P) (path : Str) (seen : List (Option (File P))) (f : File P)
    (h : (cleanJob env path).plan seen = .write f) :
    ∃ la px lb pb lines, saw seen 0 = some (.image la px) ∧ saw seen 1 = some (.image lb pb) ∧
      encode env (headerLines (getinfoText path lb)) px = .ok f ∧ f = .image lines px := by
  obtain ⟨hd, img, h1, h2⟩ := finish_write h
  obtain ⟨⟨px, hd'⟩, h3, h4⟩ := map_ok h1
  cases h4
  obtain ⟨⟨la, ha⟩, lb, pb, hb, rfl⟩ := readImage_ok h3
  obtain ⟨lines, hf⟩ := encode_px h2
  exact ⟨la, px, lb, pb, lines, ha, hb, h2, hf⟩

/-- **C186** with `useview` an image that is missing when the view is asked for is an error, whatever the later processes see -/
theorem C186_missing (env : Env α P) (conv : View → P → Except PyErr P) (stdout : Bool) (path : Str)
    (later : List (Option (File P))) :
    (ang2uvJob env conv true stdout path).plan (none :: later) = .refuse .FileNotFoundError := by
  show finish env ((ang2uvView env true path none _).bind _) = _
  rw [C128_missing]
  rfl

/-- pixels that say which version they are of -/
def oldImage : File ℕ := .image ["#?RADIANCE".toList, "VIEW= -vta -vv 100".toList] 1
def newImage : File ℕ := .image ["#?RADIANCE".toList, "VIEW= -vta -vv 180".toList] 2

def toyEnv2 : Env ℕ ℕ := { toyEnv with dims := fun _ => "-Y 2 +X 2".toList, pval := fun _ => "pvalue -r".toList }

/-- is anything written -/
def Wrote : Plan (File ℕ) → Bool
  | .write _ => true
  | _ => false

/-- an image replaced between the two processes is written, with pixels and header of different versions -/
example : Wrote ((uv2angJob toyEnv2 .ok true "a.hdr".toList).plan [some oldImage, some newImage]) = true := by decide +kernel

/-- an image emptied between the two processes is not -/
example : (uv2angJob toyEnv2 .ok true "a.hdr".toList).plan [some oldImage, some .blank] = .refuse .IOError := by decide +kernel

end Verif.Conv
