import Verif.Model.Fault

/-!
# Model of the library information

core/library_info.hpp, its C binding (bindings/c/src/core.c), and the headers that choose the libraries that do
the work (spectral/internal/fft_impl.hpp, io/internal/…/…_impl.hpp); metadata of audio files (io/metadata.hpp).
A build is the set of macros defined and the time at which it happens.
-/

namespace Edsp.Info

/-- The macros that choose the libraries (CMakeLists.txt 83-165) and the date and time of the build
(`__DATE__`, `__TIME__`; core/internal/config.hpp 102-103). -/
structure Build where
  fftw : Bool
  pffft : Bool
  accelerate : Bool
  audiofile : Bool
  sndfile : Bool
  samplerate : Bool
  date : String
  time : String

/-- library_info.hpp 32. -/
inductive FftLib where
  | fftw | pffft | accelerate | unknown
  deriving DecidableEq

/-- library_info.hpp 34. -/
inductive CodecLib where
  | audiofile | sndfile | unknown
  deriving DecidableEq

/-- The library that computes the transforms (spectral/internal/fft_impl.hpp 26-44); `none`: the build fails. -/
def Build.fftEngine (b : Build) : Option FftLib :=
  if b.fftw then some .fftw else if b.pffft then some .pffft else none

/-- The library that decodes files (io/internal/decoder/decoder_impl.hpp 25-42). -/
def Build.decoder (b : Build) : Option CodecLib :=
  if b.audiofile then some .audiofile else if b.sndfile then some .sndfile else none

/-- The library that encodes files (io/internal/encoder/encoder_impl.hpp 26-44): the first branch too includes
and uses libsndfile. -/
def Build.encoder (b : Build) : Option CodecLib :=
  if b.audiofile then some .sndfile else if b.sndfile then some .sndfile else none

/-- `fft_library` (library_info.hpp 101-111). -/
def Build.fftLibrary (b : Build) : FftLib :=
  if b.fftw then .fftw else if b.pffft then .fftw else if b.accelerate then .fftw else .unknown

/-- `codec_library` (library_info.hpp 113-121). -/
def Build.codecLibrary (b : Build) : CodecLib :=
  if b.audiofile then .audiofile else if b.sndfile then .sndfile else .unknown

/-- `get_fft_library` (core.c 53-62). -/
def Build.getFftLibrary (b : Build) : String :=
  match b.fftLibrary with
  | .fftw => "fftw" | .pffft => "pffft" | .accelerate => "accelerate" | .unknown => "unknown"

/-- `get_codec_library` (core.c 64-72). -/
def Build.getCodecLibrary (b : Build) : String :=
  match b.codecLibrary with
  | .audiofile => "audiofile" | .sndfile => "sndfile" | .unknown => "unknown"

/-- `get_build_date` (core.c 45-47) calls `build_time` (library_info.hpp 97-99). -/
def Build.getBuildDate (b : Build) : String := b.time

/-- `get_build_time` (core.c 49-51). -/
def Build.getBuildTime (b : Build) : String := b.time

/-- What TagLib finds in a file (io/internal/metadata/libtag_impl.hpp 28-59). -/
structure Tag where
  title : String
  artist : String
  album : String
  genre : String
  track : Nat
  year : Nat

/-- A file: not readable or of an unknown format, or with a tag. For the first `FileRef::tag` is a null
pointer (TagLib, fileref.h). -/
abbrev TagFile := Option Tag

/-- A member of `metadata` (metadata.hpp 35-75, libtag_impl.hpp 34-56): `ref_.tag()->field()`. -/
def metadata {α : Type} (f : TagFile) (field : Tag → α) : Except Fault α :=
  match f with
  | none => .error .badHandle
  | some t => .ok (field t)

end Edsp.Info
