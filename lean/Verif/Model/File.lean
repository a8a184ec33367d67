import Verif.Model.Token

/-! # Reading source files (nsasm/file.h, nsasm/file.cc)

A `File` is its list of lines; its path is only used in messages.  Failing to open or
read the file is in `Disk`. -/

namespace Nsasm

/-- `std::getline` until it fails (nsasm/file.cc:14-17); `line` is what has been read of
the current line.  A newline at the end of the text does not start another line. -/
def getLines (line : Str) : Str → List Str
  | [] => if line = [] then [] else [line]
  | c :: s => if c = '\n' then line :: getLines [] s else getLines (line ++ [c]) s

/-- `OpenFile` of a file that holds the text (nsasm/file.cc:8-22). -/
def openFile (text : Str) : List Str := getLines [] text

/-- `absl::StrSplit(contents, '\n')`; `line` is what has been read of the current line. -/
def splitLines (line : Str) : Str → List Str
  | [] => [line]
  | c :: s => if c = '\n' then line :: splitLines [] s else splitLines (line ++ [c]) s

/-- `absl::StripAsciiWhitespace`. -/
def stripBlanks (s : Str) : Str := (stripLeading (stripLeading s).reverse).reverse

/-- `MakeFakeFile` (nsasm/file.cc:24-30). -/
def makeFakeFile (contents : Str) : List Str := (splitLines [] contents).map stripBlanks

end Nsasm
