import Verif.Model.LibraryInfo

/-!
# C88: the library reports the libraries and the date it was built with, and the tags of a file
-/

namespace Edsp.Props

open Edsp.Info

/-- The name under which a transform library is reported. -/
def fftName : FftLib → String
  | .fftw => "fftw" | .pffft => "pffft" | .accelerate => "accelerate" | .unknown => "unknown"

/-- The name under which a codec library is reported. -/
def codecName : CodecLib → String
  | .audiofile => "audiofile" | .sndfile => "sndfile" | .unknown => "unknown"

/-- **C88, names**: in every build that computes its transforms with FFTW that is reported; the library that
decodes files is reported in every build, and it is the one that encodes them in builds without libaudiofile.
The time of the build is reported.
Missing: builds with PFFFT (`C88_fft_violates`), the encoder of builds with libaudiofile
(`C88_encoder_violates`), the date (`C88_date_violates`). -/
theorem C88_names_partial (b : Build) :
    (b.fftEngine = some .fftw → b.getFftLibrary = fftName .fftw) ∧
    (∀ l, b.decoder = some l → b.getCodecLibrary = codecName l) ∧
    (b.audiofile = false → ∀ l, b.encoder = some l → b.getCodecLibrary = codecName l) ∧
    b.getBuildTime = b.time := by
  obtain ⟨fftw, pffft, acc, af, sf, sr, d, t⟩ := b
  refine ⟨?_, ?_, ?_, rfl⟩
  · cases fftw <;> cases pffft <;> simp [Build.fftEngine, Build.getFftLibrary, Build.fftLibrary, fftName]
  · cases af <;> cases sf <;>
      simp [Build.decoder, Build.getCodecLibrary, Build.codecLibrary, codecName]
  · cases af <;> cases sf <;>
      simp [Build.encoder, Build.getCodecLibrary, Build.codecLibrary, codecName]

/-- **C88, the transform library is violated**: every build that computes its transforms with PFFFT reports
FFTW. -/
theorem C88_fft_violates (b : Build) (h : b.fftEngine = some .pffft) :
    b.getFftLibrary = "fftw" ∧ b.getFftLibrary ≠ fftName .pffft := by
  obtain ⟨fftw, pffft, acc, af, sf, sr, d, t⟩ := b
  cases fftw <;> cases pffft <;>
    simp [Build.fftEngine, Build.getFftLibrary, Build.fftLibrary, fftName] at h ⊢

/-- **C88, the encoder is violated**: every build with libaudiofile reports it, and encodes with libsndfile. -/
theorem C88_encoder_violates (b : Build) (h : b.audiofile = true) :
    b.encoder = some .sndfile ∧ b.getCodecLibrary = codecName .audiofile := by
  simp [Build.encoder, Build.getCodecLibrary, Build.codecLibrary, codecName, h]

/-- **C88, the date is violated**: `get_build_date` returns the time of the build, in every build whose date and
time differ. -/
theorem C88_date_violates (b : Build) (h : b.date ≠ b.time) : b.getBuildDate ≠ b.date :=
  fun e => h e.symm

/-- **C88, tags**: of a file that TagLib can read every field is returned. Missing: files it cannot read
(`C88_tags_violates`). -/
theorem C88_tags_partial {α : Type} (t : Tag) (field : Tag → α) : metadata (some t) field = .ok (field t) := rfl

/-- **C88, tags are violated**: reading a field of a file that is missing or not recognised dereferences a null
pointer; there is no function to ask whether the file could be read. -/
theorem C88_tags_violates {α : Type} (field : Tag → α) : metadata none field = .error .badHandle := rfl

/-- A build with PFFFT and libaudiofile. -/
example : (Build.mk false true false true false true "Nov 16 2026" "06:00:00").fftEngine = some .pffft ∧
    (Build.mk false true false true false true "Nov 16 2026" "06:00:00").decoder = some .audiofile ∧
    (Build.mk false true false true false true "Nov 16 2026" "06:00:00").getBuildDate = "06:00:00" :=
  ⟨rfl, rfl, rfl⟩

end Edsp.Props
