import Verif.Props.Sw
import Verif.Props.Opt
import Verif.Props.Ocl
import Verif.Props.Cuda
/-!
# Check of the models against the test data of the project

The streams recorded in `test/test_patterns.c` and the expectations of the programs in `test/`, evaluated on the entry points
of the models.  These are tests of the models (of their agreement with the code), not properties.
-/

namespace Lib842.Validation
open Props

/-- `PATTERN_EMPTY_UNCOMPRESSED`, test/test_patterns.c -/
def patEmptyIn : List Byte := []

/-- `PATTERN_EMPTY_COMPRESSED`, test/test_patterns.c -/
def patEmptyOut : List Byte := [
   0xf0, 0x00, 0x00, 0x00, 0x00, 0x00, 0x00, 0x00]

/-- `PATTERN_ZEROS_UNCOMPRESSED`, test/test_patterns.c -/
def patZerosIn : List Byte := [
   0x00, 0x00, 0x00, 0x00, 0x00, 0x00, 0x00, 0x00, 0x00, 0x00, 0x00, 0x00, 0x00, 0x00, 0x00, 0x00,
   0x00, 0x00, 0x00, 0x00, 0x00, 0x00, 0x00, 0x00, 0x00, 0x00, 0x00, 0x00, 0x00, 0x00, 0x00, 0x00]

/-- `PATTERN_ZEROS_COMPRESSED`, test/test_patterns.c -/
def patZerosOut : List Byte := [
   0xe6, 0xc2, 0xf0, 0x00, 0x00, 0x00, 0x00, 0x00]

/-- `PATTERN_RANDOM_UNCOMPRESSED`, test/test_patterns.c -/
def patRandomIn : List Byte := [
   0x0f, 0x07, 0x32, 0xb4, 0xaf, 0x6b, 0xe4, 0x0c, 0x5f, 0x8b, 0x4e, 0x4c, 0x4e, 0x3f, 0xfd, 0x44,
   0xf0, 0x5f, 0xd6, 0x60, 0x22, 0x4d, 0xc5, 0x2f, 0x37, 0x8c, 0xbb, 0x3d, 0xd2, 0x17, 0x9b, 0xde]

/-- `PATTERN_RANDOM_COMPRESSED`, test/test_patterns.c -/
def patRandomOut : List Byte := [
   0x00, 0x78, 0x39, 0x95, 0xa5, 0x7b, 0x5f, 0x20, 0x60, 0x17, 0xe2, 0xd3, 0x93, 0x13, 0x8f, 0xff,
   0x51, 0x01, 0xe0, 0xbf, 0xac, 0xc0, 0x44, 0x9b, 0x8a, 0x5e, 0x03, 0x78, 0xcb, 0xb3, 0xdd, 0x21,
   0x79, 0xbd, 0xef, 0x47, 0xe0, 0xe6, 0xe6, 0x00]

/-- `PATTERN_LIMIT_UNCOMPRESSED`, test/test_patterns.c -/
def patLimitIn : List Byte := [
   0x11, 0x11, 0x11, 0x11, 0x11, 0x11, 0x11, 0x11, 0x12, 0x12, 0x12, 0x12, 0x13, 0x13, 0x14, 0x15,
   0x17, 0x17, 0x17, 0x17, 0x17, 0x17, 0x17, 0x17, 0x17, 0x17, 0x17, 0x17, 0x17, 0x17, 0x17, 0x17]

/-- `PATTERN_LIMIT_COMPRESSED`, test/test_patterns.c -/
def patLimitOut : List Byte := [
   0x00, 0x88, 0x88, 0x88, 0x88, 0x88, 0x88, 0x88, 0x88, 0x04, 0x84, 0x84, 0x84, 0x84, 0xc4, 0xc5,
   0x05, 0x40, 0x2e, 0x2e, 0x2e, 0x2e, 0x2e, 0x2e, 0x2e, 0x2f, 0xb0, 0x3d, 0x6a, 0xe4, 0xe2, 0x58]

/-- `PATTERN_MIXED_UNCOMPRESSED`, test/test_patterns.c -/
def patMixedIn : List Byte := [
   0x11, 0x11, 0x11, 0x11, 0x11, 0x11, 0x11, 0x11, 0x11, 0x11, 0x11, 0x11, 0x11, 0x11, 0x11, 0x11,
   0x11, 0x11, 0x11, 0x11, 0x11, 0x11, 0x11, 0x11, 0x11, 0x11, 0x11, 0x11, 0x11, 0x11, 0x11, 0x11,
   0x0f, 0x07, 0x32, 0xb4, 0xaf, 0x6b, 0xe4, 0x0c, 0x5f, 0x8b, 0x4e, 0x4c, 0x4e, 0x3f, 0xfd, 0x44,
   0xf0, 0x5f, 0xd6, 0x60, 0x22, 0x4d, 0xc5, 0x2f, 0x37, 0x8c, 0xbb, 0x3d, 0xd2, 0x17, 0x9b, 0xde]

/-- `PATTERN_MIXED_COMPRESSED`, test/test_patterns.c -/
def patMixedOut : List Byte := [
   0x00, 0x88, 0x88, 0x88, 0x88, 0x88, 0x88, 0x88, 0x8e, 0xc2, 0x00, 0x78, 0x39, 0x95, 0xa5, 0x7b,
   0x5f, 0x20, 0x60, 0x17, 0xe2, 0xd3, 0x93, 0x13, 0x8f, 0xff, 0x51, 0x01, 0xe0, 0xbf, 0xac, 0xc0,
   0x44, 0x9b, 0x8a, 0x5e, 0x03, 0x78, 0xcb, 0xb3, 0xdd, 0x21, 0x79, 0xbd, 0xef, 0x27, 0xab, 0x7c,
   0x09, 0x80, 0x00, 0x00, 0x00, 0x00, 0x00, 0x00]

/-- `PATTERN_TEXT_UNCOMPRESSED`, test/test_patterns.c -/
def patTextIn : List Byte := [
   0x57, 0x68, 0x65, 0x6e, 0x20, 0x6d, 0x79, 0x20, 0x66, 0x61, 0x74, 0x68, 0x65, 0x72, 0x20, 0x72,
   0x65, 0x74, 0x75, 0x72, 0x6e, 0x65, 0x64, 0x20, 0x66, 0x72, 0x6f, 0x6d, 0x20, 0x4d, 0x69, 0x6c,
   0x61, 0x6e, 0x2c, 0x20, 0x68, 0x65, 0x20, 0x66, 0x6f, 0x75, 0x6e, 0x64, 0x20, 0x70, 0x6c, 0x61,
   0x79, 0x69, 0x6e, 0x67, 0x20, 0x77, 0x69, 0x74, 0x68, 0x20, 0x6d, 0x65, 0x20, 0x69, 0x6e, 0x20,
   0x74, 0x68, 0x65, 0x20, 0x68, 0x61, 0x6c, 0x6c, 0x20, 0x6f, 0x66, 0x20, 0x6f, 0x75, 0x72, 0x20,
   0x76, 0x69, 0x6c, 0x6c, 0x61, 0x20, 0x61, 0x20, 0x63, 0x68, 0x69, 0x6c, 0x64, 0x20, 0x66, 0x61,
   0x69, 0x72, 0x65, 0x72, 0x20, 0x74, 0x68, 0x61, 0x6e, 0x20, 0x70, 0x69, 0x63, 0x74, 0x75, 0x72,
   0x65, 0x64, 0x20, 0x63, 0x68, 0x65, 0x72, 0x75, 0x62, 0xe2, 0x80, 0x94, 0x61, 0x20, 0x63, 0x72,
   0x65, 0x61, 0x74, 0x75, 0x72, 0x65, 0x20, 0x77, 0x68, 0x6f, 0x20, 0x73, 0x65, 0x65, 0x6d, 0x65,
   0x64, 0x20, 0x74, 0x6f, 0x20, 0x73, 0x68, 0x65, 0x64, 0x20, 0x72, 0x61, 0x64, 0x69, 0x61, 0x6e,
   0x63, 0x65, 0x20, 0x66, 0x72, 0x6f, 0x6d, 0x20, 0x68, 0x65, 0x72, 0x20, 0x6c, 0x6f, 0x6f, 0x6b,
   0x73, 0x20, 0x61, 0x6e, 0x64, 0x20, 0x77, 0x68, 0x6f, 0x73, 0x65, 0x20, 0x66, 0x6f, 0x72, 0x6d,
   0x20, 0x61, 0x6e, 0x64, 0x20, 0x6d, 0x6f, 0x74, 0x69, 0x6f, 0x6e, 0x73, 0x20, 0x77, 0x65, 0x72,
   0x65, 0x20, 0x6c, 0x69, 0x67, 0x68, 0x74, 0x65, 0x72, 0x20, 0x74, 0x68, 0x61, 0x6e, 0x20, 0x74,
   0x68, 0x65, 0x20, 0x63, 0x68, 0x61, 0x6d, 0x6f, 0x69, 0x73, 0x20, 0x6f, 0x66, 0x20, 0x74, 0x68,
   0x65, 0x20, 0x68, 0x69, 0x6c, 0x6c, 0x73, 0x2e, 0x20, 0x54, 0x68, 0x65, 0x20, 0x61, 0x70, 0x70,
   0x61, 0x72, 0x69, 0x74, 0x69, 0x6f, 0x6e, 0x20, 0x77, 0x61, 0x73, 0x20, 0x73, 0x6f, 0x6f, 0x6e,
   0x20, 0x65, 0x78, 0x70, 0x6c, 0x61, 0x69, 0x6e, 0x65, 0x64, 0x2e, 0x20, 0x57, 0x69, 0x74, 0x68,
   0x20, 0x68, 0x69, 0x73, 0x20, 0x70, 0x65, 0x72, 0x6d, 0x69, 0x73, 0x73, 0x69, 0x6f, 0x6e, 0x20,
   0x6d, 0x79, 0x20, 0x6d, 0x6f, 0x74, 0x68, 0x65, 0x72, 0x20, 0x70, 0x72, 0x65, 0x76, 0x61, 0x69,
   0x6c, 0x65, 0x64, 0x20, 0x6f, 0x6e, 0x20, 0x68, 0x65, 0x72, 0x20, 0x72, 0x75, 0x73, 0x74, 0x69,
   0x63, 0x20, 0x67, 0x75, 0x61, 0x72, 0x64, 0x69, 0x61, 0x6e, 0x73, 0x20, 0x74, 0x6f, 0x20, 0x79,
   0x69, 0x65, 0x6c, 0x64, 0x20, 0x74, 0x68, 0x65, 0x69, 0x72, 0x20, 0x63, 0x68, 0x61, 0x72, 0x67,
   0x65, 0x20, 0x74, 0x6f, 0x20, 0x68, 0x65, 0x72, 0x2e, 0x20, 0x54, 0x68, 0x65, 0x79, 0x20, 0x77,
   0x65, 0x72, 0x65, 0x20, 0x66, 0x6f, 0x6e, 0x64, 0x20, 0x6f, 0x66, 0x20, 0x74, 0x68, 0x65, 0x20,
   0x73, 0x77, 0x65, 0x65, 0x74, 0x20, 0x6f, 0x72, 0x70, 0x68, 0x61, 0x6e, 0x2e, 0x20, 0x48, 0x65,
   0x72, 0x20, 0x70, 0x72, 0x65, 0x73, 0x65, 0x6e, 0x63, 0x65, 0x20, 0x68, 0x61, 0x64, 0x20, 0x73,
   0x65, 0x65, 0x6d, 0x65, 0x64, 0x20, 0x61, 0x20, 0x62, 0x6c, 0x65, 0x73, 0x73, 0x69, 0x6e, 0x67,
   0x20, 0x74, 0x6f, 0x20, 0x74, 0x68, 0x65, 0x6d, 0x2c, 0x20, 0x62, 0x75, 0x74, 0x20, 0x69, 0x74,
   0x20, 0x77, 0x6f, 0x75, 0x6c, 0x64, 0x20, 0x62, 0x65, 0x20, 0x75, 0x6e, 0x66, 0x61, 0x69, 0x72,
   0x20, 0x74, 0x6f, 0x20, 0x68, 0x65, 0x72, 0x20, 0x74, 0x6f, 0x20, 0x6b, 0x65, 0x65, 0x70, 0x20,
   0x68, 0x65, 0x72, 0x20, 0x69, 0x6e, 0x20, 0x70, 0x6f, 0x76, 0x65, 0x72, 0x74, 0x79, 0x20, 0x61,
   0x6e, 0x64, 0x20, 0x77, 0x61, 0x6e, 0x74, 0x20, 0x77, 0x68, 0x65, 0x6e, 0x20, 0x50, 0x72, 0x6f,
   0x76, 0x69, 0x64, 0x65, 0x6e, 0x63, 0x65, 0x20, 0x61, 0x66, 0x66, 0x6f, 0x72, 0x64, 0x65, 0x64,
   0x20, 0x68, 0x65, 0x72, 0x20, 0x73, 0x75, 0x63, 0x68, 0x20, 0x70, 0x6f, 0x77, 0x65, 0x72, 0x66,
   0x75, 0x6c, 0x20, 0x70, 0x72, 0x6f, 0x74, 0x65, 0x63, 0x74, 0x69, 0x6f, 0x6e, 0x2e, 0x20, 0x54,
   0x68, 0x65, 0x79, 0x20, 0x63, 0x6f, 0x6e, 0x73, 0x75, 0x6c, 0x74, 0x65, 0x64, 0x20, 0x74, 0x68,
   0x65, 0x69, 0x72, 0x20, 0x76, 0x69, 0x6c, 0x6c, 0x61, 0x67, 0x65, 0x20, 0x70, 0x72, 0x69, 0x65,
   0x73, 0x74, 0x2c, 0x20, 0x61, 0x6e, 0x64, 0x20, 0x74, 0x68, 0x65, 0x20, 0x72, 0x65, 0x73, 0x75,
   0x6c, 0x74, 0x20, 0x77, 0x61, 0x73, 0x20, 0x74, 0x68, 0x61, 0x74, 0x20, 0x45, 0x6c, 0x69, 0x7a,
   0x61, 0x62, 0x65, 0x74, 0x68, 0x20, 0x4c, 0x61, 0x76, 0x65, 0x6e, 0x7a, 0x61, 0x20, 0x62, 0x65,
   0x63, 0x61, 0x6d, 0x65, 0x20, 0x74, 0x68, 0x65, 0x20, 0x69, 0x6e, 0x6d, 0x61, 0x74, 0x65, 0x20,
   0x6f, 0x66, 0x20, 0x6d, 0x79, 0x20, 0x70, 0x61, 0x72, 0x65, 0x6e, 0x74, 0x73, 0xe2, 0x80, 0x99,
   0x20, 0x68, 0x6f, 0x75, 0x73, 0x65, 0xe2, 0x80, 0x94, 0x6d, 0x79, 0x20, 0x6d, 0x6f, 0x72, 0x65,
   0x20, 0x74, 0x68, 0x61, 0x6e, 0x20, 0x73, 0x69, 0x73, 0x74, 0x65, 0x72, 0xe2, 0x80, 0x94, 0x74,
   0x68, 0x65, 0x20, 0x62, 0x65, 0x61, 0x75, 0x74, 0x69, 0x66, 0x75, 0x6c, 0x20, 0x61, 0x6e, 0x64,
   0x20, 0x61, 0x64, 0x6f, 0x72, 0x65, 0x64, 0x20, 0x63, 0x6f, 0x6d, 0x70, 0x61, 0x6e, 0x69, 0x6f,
   0x6e, 0x20, 0x6f, 0x66, 0x20, 0x61, 0x6c, 0x6c, 0x20, 0x6d, 0x79, 0x20, 0x6f, 0x63, 0x63, 0x75,
   0x70, 0x61, 0x74, 0x69, 0x6f, 0x6e, 0x73, 0x20, 0x61, 0x6e, 0x64, 0x20, 0x6d, 0x79, 0x20, 0x70,
   0x6c, 0x65, 0x61, 0x73, 0x75, 0x72, 0x65, 0x73, 0x2e, 0x20, 0x20, 0x20, 0x20, 0x20, 0x20, 0x00]

/-- `PATTERN_TEXT_COMPRESSED`, test/test_patterns.c -/
def patTextOut : List Byte := [
   0x02, 0xbb, 0x43, 0x2b, 0x71, 0x03, 0x6b, 0xc9, 0x00, 0x19, 0x98, 0x5d, 0x1a, 0x19, 0x5c, 0x88,
   0x1c, 0x80, 0xca, 0xe8, 0xea, 0xe4, 0xdc, 0xca, 0xc8, 0x40, 0x06, 0x67, 0x26, 0xf6, 0xd2, 0x04,
   0xd6, 0x96, 0xc0, 0x30, 0xb7, 0x16, 0x10, 0x34, 0x32, 0x90, 0x33, 0x01, 0xbd, 0xd5, 0xb9, 0x90,
   0x81, 0xc1, 0xb1, 0x84, 0x0f, 0x2d, 0x2d, 0xcc, 0xe4, 0x0e, 0xed, 0x2e, 0x80, 0x68, 0x20, 0x6d,
   0x65, 0x20, 0x69, 0x6e, 0x20, 0x50, 0x2b, 0x29, 0x03, 0x43, 0x0b, 0x63, 0x60, 0x88, 0x1b, 0xd9,
   0x88, 0x05, 0x1c, 0x88, 0x0a, 0xec, 0xd2, 0x46, 0xc2, 0x40, 0xc2, 0x40, 0x86, 0x36, 0x80, 0xf0,
   0xb0, 0x43, 0x34, 0xb9, 0x03, 0x10, 0x3a, 0x11, 0x2c, 0x7d, 0xc1, 0xa5, 0x8d, 0xd0, 0x24, 0x4c,
   0xac, 0x84, 0x0c, 0x62, 0x4e, 0x4e, 0xa2, 0x62, 0xe2, 0x80, 0x94, 0x2a, 0x63, 0x72, 0x0b, 0x2b,
   0x0b, 0xa3, 0xab, 0x93, 0x28, 0xd0, 0x5a, 0x1b, 0xc8, 0x1c, 0xd9, 0x59, 0x47, 0x5a, 0x16, 0xe8,
   0xde, 0x8a, 0x24, 0xb0, 0xb7, 0x26, 0x16, 0x46, 0x91, 0x02, 0xb1, 0xb2, 0x89, 0xb9, 0x37, 0xb6,
   0x90, 0x3c, 0x48, 0x9d, 0xb1, 0xbd, 0xbd, 0xac, 0xee, 0x64, 0x02, 0x01, 0x6e, 0xed, 0x05, 0x6f,
   0x73, 0x21, 0x66, 0x6f, 0x72, 0x6d, 0x39, 0x03, 0x08, 0xa8, 0x13, 0x7b, 0xa0, 0xda, 0x5b, 0xdb,
   0x9c, 0xc6, 0x81, 0x94, 0x42, 0xd8, 0xd2, 0xce, 0xd0, 0xe8, 0xcb, 0x22, 0x70, 0x51, 0x03, 0x28,
   0x89, 0x1c, 0x91, 0x36, 0xb7, 0xa1, 0xa5, 0xcc, 0x90, 0x94, 0x15, 0x84, 0x2d, 0x0d, 0x24, 0x6e,
   0x65, 0xc7, 0x20, 0x54, 0x12, 0x60, 0x70, 0x70, 0x43, 0x0b, 0x90, 0xdb, 0x20, 0xf9, 0x5d, 0xd8,
   0x56, 0x1c, 0xdb, 0xdb, 0xdb, 0x84, 0x40, 0xca, 0xf0, 0xe0, 0x2e, 0xd2, 0xdc, 0xb3, 0x82, 0xe2,
   0x05, 0x76, 0x90, 0x54, 0x10, 0x34, 0x3a, 0x0b, 0x03, 0x11, 0xb5, 0xa5, 0xcd, 0xcc, 0x82, 0x86,
   0xd7, 0x90, 0x26, 0x31, 0x25, 0x13, 0xb8, 0x39, 0x32, 0xbb, 0x30, 0xb4, 0xa1, 0xb1, 0x94, 0x2e,
   0x1e, 0x42, 0x80, 0x37, 0x57, 0x37, 0x46, 0x91, 0xb1, 0x90, 0x33, 0xba, 0xc0, 0x27, 0x44, 0x41,
   0x61, 0x24, 0x81, 0xe4, 0x6d, 0x2c, 0xad, 0x8c, 0x86, 0x42, 0x51, 0x30, 0x39, 0x22, 0x72, 0x67,
   0x91, 0x0a, 0x4c, 0x80, 0x32, 0xe3, 0x55, 0x1a, 0x19, 0x5e, 0x46, 0xa4, 0x0c, 0x42, 0xbc, 0x2b,
   0x80, 0x90, 0x40, 0xae, 0x6e, 0xe8, 0xce, 0x84, 0x0d, 0xee, 0x47, 0x70, 0x68, 0x10, 0x8d, 0x48,
   0x65, 0xa9, 0x39, 0x95, 0xcc, 0x06, 0x0a, 0x12, 0x0c, 0x2c, 0x88, 0xb7, 0x11, 0x85, 0x95, 0x19,
   0x89, 0xb3, 0x49, 0xcd, 0xa4, 0x65, 0x86, 0x4d, 0xe4, 0x00, 0xac, 0xad, 0xad, 0x11, 0x62, 0x75,
   0xca, 0x1b, 0x88, 0xd0, 0xa5, 0x89, 0x03, 0x13, 0x48, 0x5d, 0x5b, 0x81, 0x0c, 0x30, 0x70, 0x15,
   0x31, 0x24, 0x81, 0xad, 0x19, 0xc0, 0x82, 0xe2, 0xa8, 0xb1, 0x63, 0x37, 0xbb, 0x03, 0x3a, 0x3c,
   0xb0, 0x48, 0x54, 0x68, 0x43, 0x2a, 0x0b, 0x7a, 0x64, 0x0a, 0x0a, 0x4b, 0x28, 0x64, 0x65, 0x6e,
   0x63, 0x21, 0x33, 0x0b, 0x32, 0xf3, 0x93, 0x21, 0xc5, 0x8b, 0xa8, 0xae, 0xac, 0x6a, 0x1c, 0x70,
   0x6f, 0x77, 0x65, 0x72, 0x66, 0x43, 0xab, 0x64, 0x92, 0x93, 0x5c, 0x0d, 0x99, 0x1b, 0x8b, 0x9f,
   0x16, 0x74, 0xf2, 0x40, 0xc6, 0xde, 0xcb, 0x21, 0x86, 0xb2, 0xe6, 0xd4, 0xb2, 0xb4, 0xaa, 0x85,
   0x10, 0xc2, 0xce, 0xbb, 0x3b, 0x60, 0x87, 0x37, 0x4e, 0x44, 0xf4, 0x8b, 0x04, 0x10, 0x9c, 0xdd,
   0x4c, 0xd8, 0xe8, 0x86, 0xc2, 0xe6, 0xde, 0xf7, 0x2c, 0xa4, 0x56, 0xc6, 0x97, 0xa1, 0x30, 0xb1,
   0x32, 0xba, 0x0a, 0x26, 0x30, 0x89, 0xd9, 0x95, 0xb9, 0xeb, 0x6d, 0x89, 0x95, 0x2c, 0x6c, 0x3b,
   0x25, 0x90, 0x90, 0x34, 0xb7, 0x36, 0xb0, 0xba, 0x2e, 0x9d, 0xbd, 0x99, 0x88, 0x85, 0xc1, 0x85,
   0x46, 0xcd, 0xce, 0x8e, 0x7c, 0x50, 0x13, 0x2f, 0x90, 0xe9, 0x73, 0x65, 0xe2, 0x80, 0x44, 0xa3,
   0x69, 0x0b, 0x99, 0xb5, 0xc3, 0x30, 0x7b, 0xd1, 0x30, 0x67, 0x5b, 0x94, 0x74, 0x7b, 0x87, 0x5b,
   0x2b, 0x0b, 0xab, 0xa2, 0x5a, 0x59, 0x86, 0x06, 0x0d, 0x7e, 0x64, 0x6f, 0x36, 0xa1, 0x69, 0x13,
   0x6b, 0x85, 0x64, 0x14, 0xa0, 0xd4, 0x1f, 0x9e, 0xa8, 0x01, 0x6f, 0x63, 0x63, 0x75, 0x92, 0x9d,
   0x3c, 0x3c, 0x2d, 0xd3, 0x33, 0x12, 0x50, 0xa0, 0x3a, 0x75, 0x72, 0xd2, 0x54, 0x69, 0x01, 0x01,
   0x01, 0x01, 0x00, 0x07, 0x8b, 0x30, 0x2e, 0x1a, 0x40, 0x00, 0x00, 0x00, 0x00, 0x00, 0x00, 0x00]

/-- `INVALID_BITSTREAM`, test/test_decompress_invalid_simple.c -/
def invalidSimple : List Byte := [
   0xdc, 0x86, 0x04, 0x22, 0x39, 0x67, 0x26, 0xa7, 0xa6, 0x93, 0x2a,
   0xe5, 0x5f, 0x74, 0x50, 0x39, 0x86, 0x4c, 0xba, 0x62, 0x55, 0xf3,
   0xfb, 0xe0, 0x8f, 0x61, 0xe8, 0x14, 0x8c, 0x77, 0xc2, 0x77]

/-- `INVALID_BITSTREAM`, test/test_decompress_crcerror.c -/
def crcError : List Byte := [
   0x00, 0x88, 0x88, 0x88, 0x88, 0x88, 0x88, 0x88, 0x88, 0x04, 0x84, 0x84,
   0x84, 0x84, 0x84, 0x84, 0x84, 0xbd, 0x42, 0xdf, 0xe3, 0x00, 0x00, 0x00]


/-- test_decompress_pattern, both byte orders, `cl` without the host part; test_decompress_pattern_unaligned -/
example : view (sw842Decompress .little 0 patEmptyOut (List.replicate (patEmptyIn.length + 5) 0xaa)) = some (none, patEmptyIn.length, patEmptyIn) ∧
    view (sw842Decompress .big 3 patEmptyOut (List.replicate (patEmptyIn.length + 5) 0xaa)) = some (none, patEmptyIn.length, patEmptyIn) ∧
    view (optsw842Decompress .little 0 0 patEmptyOut (List.replicate (patEmptyIn.length + 5) 0xaa)) = some (none, patEmptyIn.length, patEmptyIn) ∧
    view (optsw842Decompress .big 0 0 patEmptyOut (List.replicate (patEmptyIn.length + 5) 0xaa)) = some (none, patEmptyIn.length, patEmptyIn) ∧
    view (optsw842Decompress .little 3 3 patEmptyOut (List.replicate (patEmptyIn.length + 5) 0xaa)) = some (none, patEmptyIn.length, patEmptyIn) ∧
    view (oclCore .little (some patEmptyOut) 0 patEmptyOut.length (List.replicate (patEmptyIn.length + 8) 0xaa) (patEmptyIn.length + 5)) =
      some (none, patEmptyIn.length, patEmptyIn) := by
  and_intros <;> decide +kernel

/-- test_compress_pattern, test_compress_pattern_unaligned; both compressors even produce the recorded stream -/
example : view (sw842Compress .little 0 junk0 patEmptyIn (List.replicate (2 * patEmptyIn.length + 8) 0xaa)) =
      some (none, patEmptyOut.length, patEmptyOut) ∧
    view (sw842Compress .big 3 junk1 patEmptyIn (List.replicate (2 * patEmptyIn.length + 8) 0xaa)) = some (none, patEmptyOut.length, patEmptyOut) := by
  and_intros <;> decide +kernel

/-- test_compress_pattern_barelysmall -/
example : view (sw842Compress .little 0 junk0 patEmptyIn (List.replicate (patEmptyOut.length - 1) 0xaa)) = some (some .ENOSPC, 0, []) := by
  and_intros <;> decide +kernel

/-- test_decompress_pattern, both byte orders, `cl` without the host part; test_decompress_pattern_unaligned -/
example : view (sw842Decompress .little 0 patZerosOut (List.replicate (patZerosIn.length + 5) 0xaa)) = some (none, patZerosIn.length, patZerosIn) ∧
    view (sw842Decompress .big 3 patZerosOut (List.replicate (patZerosIn.length + 5) 0xaa)) = some (none, patZerosIn.length, patZerosIn) ∧
    view (optsw842Decompress .little 0 0 patZerosOut (List.replicate (patZerosIn.length + 5) 0xaa)) = some (none, patZerosIn.length, patZerosIn) ∧
    view (optsw842Decompress .big 0 0 patZerosOut (List.replicate (patZerosIn.length + 5) 0xaa)) = some (none, patZerosIn.length, patZerosIn) ∧
    view (optsw842Decompress .little 3 3 patZerosOut (List.replicate (patZerosIn.length + 5) 0xaa)) = some (none, patZerosIn.length, patZerosIn) ∧
    view (oclCore .little (some patZerosOut) 0 patZerosOut.length (List.replicate (patZerosIn.length + 8) 0xaa) (patZerosIn.length + 5)) =
      some (none, patZerosIn.length, patZerosIn) := by
  and_intros <;> decide +kernel

/-- test_compress_pattern, test_compress_pattern_unaligned; both compressors even produce the recorded stream -/
example : view (sw842Compress .little 0 junk0 patZerosIn (List.replicate (2 * patZerosIn.length + 8) 0xaa)) =
      some (none, patZerosOut.length, patZerosOut) ∧
    view (sw842Compress .big 3 junk1 patZerosIn (List.replicate (2 * patZerosIn.length + 8) 0xaa)) = some (none, patZerosOut.length, patZerosOut) ∧
    view (optsw842Compress .little 0 0 ojunk0 junk0 patZerosIn (List.replicate (2 * patZerosIn.length + 8) 0xaa)) =
      some (none, patZerosOut.length, patZerosOut) ∧
    view (optsw842Compress .little 3 3 ojunk0 junk0 patZerosIn (List.replicate (2 * patZerosIn.length + 8) 0xaa)) =
      some (none, patZerosOut.length, patZerosOut) := by
  and_intros <;> decide +kernel

/-- test_compress_pattern_barelysmall, test_decompress_pattern_barelysmall, test_decompress_pattern_halfsmall -/
example : view (sw842Compress .little 0 junk0 patZerosIn (List.replicate (patZerosOut.length - 1) 0xaa)) = some (some .ENOSPC, 0, []) ∧
    view (optsw842Compress .little 0 0 ojunk0 junk0 patZerosIn (List.replicate (patZerosOut.length - 1) 0xaa)) = some (some .ENOSPC, 0, []) ∧
    view (sw842Decompress .little 0 patZerosOut (List.replicate (patZerosIn.length - 1) 0xaa)) = some (some .ENOSPC, 0, []) ∧
    view (optsw842Decompress .little 0 0 patZerosOut (List.replicate (patZerosIn.length - 1) 0xaa)) = some (some .ENOSPC, 0, []) ∧
    view (sw842Decompress .little 0 patZerosOut (List.replicate (patZerosIn.length / 2) 0xaa)) = some (some .ENOSPC, 0, []) ∧
    view (optsw842Decompress .little 0 0 patZerosOut (List.replicate (patZerosIn.length / 2) 0xaa)) = some (some .ENOSPC, 0, []) := by
  and_intros <;> decide +kernel

/-- test_decompress_pattern, both byte orders, `cl` without the host part; test_decompress_pattern_unaligned -/
example : view (sw842Decompress .little 0 patRandomOut (List.replicate (patRandomIn.length + 5) 0xaa)) = some (none, patRandomIn.length, patRandomIn) ∧
    view (sw842Decompress .big 3 patRandomOut (List.replicate (patRandomIn.length + 5) 0xaa)) = some (none, patRandomIn.length, patRandomIn) ∧
    view (optsw842Decompress .little 0 0 patRandomOut (List.replicate (patRandomIn.length + 5) 0xaa)) = some (none, patRandomIn.length, patRandomIn) ∧
    view (optsw842Decompress .big 0 0 patRandomOut (List.replicate (patRandomIn.length + 5) 0xaa)) = some (none, patRandomIn.length, patRandomIn) ∧
    view (optsw842Decompress .little 3 3 patRandomOut (List.replicate (patRandomIn.length + 5) 0xaa)) = some (none, patRandomIn.length, patRandomIn) ∧
    view (oclCore .little (some patRandomOut) 0 patRandomOut.length (List.replicate (patRandomIn.length + 8) 0xaa) (patRandomIn.length + 5)) =
      some (none, patRandomIn.length, patRandomIn) := by
  and_intros <;> decide +kernel

/-- test_compress_pattern, test_compress_pattern_unaligned; both compressors even produce the recorded stream -/
example : view (sw842Compress .little 0 junk0 patRandomIn (List.replicate (2 * patRandomIn.length + 8) 0xaa)) =
      some (none, patRandomOut.length, patRandomOut) ∧
    view (sw842Compress .big 3 junk1 patRandomIn (List.replicate (2 * patRandomIn.length + 8) 0xaa)) = some (none, patRandomOut.length, patRandomOut) ∧
    view (optsw842Compress .little 0 0 ojunk0 junk0 patRandomIn (List.replicate (2 * patRandomIn.length + 8) 0xaa)) =
      some (none, patRandomOut.length, patRandomOut) ∧
    view (optsw842Compress .little 3 3 ojunk0 junk0 patRandomIn (List.replicate (2 * patRandomIn.length + 8) 0xaa)) =
      some (none, patRandomOut.length, patRandomOut) := by
  and_intros <;> decide +kernel

/-- test_compress_pattern_barelysmall, test_decompress_pattern_barelysmall, test_decompress_pattern_halfsmall -/
example : view (sw842Compress .little 0 junk0 patRandomIn (List.replicate (patRandomOut.length - 1) 0xaa)) = some (some .ENOSPC, 0, []) ∧
    view (optsw842Compress .little 0 0 ojunk0 junk0 patRandomIn (List.replicate (patRandomOut.length - 1) 0xaa)) = some (some .ENOSPC, 0, []) ∧
    view (sw842Decompress .little 0 patRandomOut (List.replicate (patRandomIn.length - 1) 0xaa)) = some (some .ENOSPC, 0, []) ∧
    view (optsw842Decompress .little 0 0 patRandomOut (List.replicate (patRandomIn.length - 1) 0xaa)) = some (some .ENOSPC, 0, []) ∧
    view (sw842Decompress .little 0 patRandomOut (List.replicate (patRandomIn.length / 2) 0xaa)) = some (some .ENOSPC, 0, []) ∧
    view (optsw842Decompress .little 0 0 patRandomOut (List.replicate (patRandomIn.length / 2) 0xaa)) = some (some .ENOSPC, 0, []) := by
  and_intros <;> decide +kernel

/-- test_decompress_pattern, both byte orders, `cl` without the host part; test_decompress_pattern_unaligned -/
example : view (sw842Decompress .little 0 patLimitOut (List.replicate (patLimitIn.length + 5) 0xaa)) = some (none, patLimitIn.length, patLimitIn) ∧
    view (sw842Decompress .big 3 patLimitOut (List.replicate (patLimitIn.length + 5) 0xaa)) = some (none, patLimitIn.length, patLimitIn) ∧
    view (optsw842Decompress .little 0 0 patLimitOut (List.replicate (patLimitIn.length + 5) 0xaa)) = some (none, patLimitIn.length, patLimitIn) ∧
    view (optsw842Decompress .big 0 0 patLimitOut (List.replicate (patLimitIn.length + 5) 0xaa)) = some (none, patLimitIn.length, patLimitIn) ∧
    view (optsw842Decompress .little 3 3 patLimitOut (List.replicate (patLimitIn.length + 5) 0xaa)) = some (none, patLimitIn.length, patLimitIn) ∧
    view (oclCore .little (some patLimitOut) 0 patLimitOut.length (List.replicate (patLimitIn.length + 8) 0xaa) (patLimitIn.length + 5)) =
      some (none, patLimitIn.length, patLimitIn) := by
  and_intros <;> decide +kernel

/-- test_compress_pattern, test_compress_pattern_unaligned; both compressors even produce the recorded stream -/
example : view (sw842Compress .little 0 junk0 patLimitIn (List.replicate (2 * patLimitIn.length + 8) 0xaa)) =
      some (none, patLimitOut.length, patLimitOut) ∧
    view (sw842Compress .big 3 junk1 patLimitIn (List.replicate (2 * patLimitIn.length + 8) 0xaa)) = some (none, patLimitOut.length, patLimitOut) ∧
    view (optsw842Compress .little 0 0 ojunk0 junk0 patLimitIn (List.replicate (2 * patLimitIn.length + 8) 0xaa)) =
      some (none, patLimitOut.length, patLimitOut) ∧
    view (optsw842Compress .little 3 3 ojunk0 junk0 patLimitIn (List.replicate (2 * patLimitIn.length + 8) 0xaa)) =
      some (none, patLimitOut.length, patLimitOut) := by
  and_intros <;> decide +kernel

/-- test_compress_pattern_barelysmall, test_decompress_pattern_barelysmall, test_decompress_pattern_halfsmall -/
example : view (sw842Compress .little 0 junk0 patLimitIn (List.replicate (patLimitOut.length - 1) 0xaa)) = some (some .ENOSPC, 0, []) ∧
    view (optsw842Compress .little 0 0 ojunk0 junk0 patLimitIn (List.replicate (patLimitOut.length - 1) 0xaa)) = some (some .ENOSPC, 0, []) ∧
    view (sw842Decompress .little 0 patLimitOut (List.replicate (patLimitIn.length - 1) 0xaa)) = some (some .ENOSPC, 0, []) ∧
    view (optsw842Decompress .little 0 0 patLimitOut (List.replicate (patLimitIn.length - 1) 0xaa)) = some (some .ENOSPC, 0, []) ∧
    view (sw842Decompress .little 0 patLimitOut (List.replicate (patLimitIn.length / 2) 0xaa)) = some (some .ENOSPC, 0, []) ∧
    view (optsw842Decompress .little 0 0 patLimitOut (List.replicate (patLimitIn.length / 2) 0xaa)) = some (some .ENOSPC, 0, []) := by
  and_intros <;> decide +kernel

/-- test_decompress_pattern, both byte orders, `cl` without the host part; test_decompress_pattern_unaligned -/
example : view (sw842Decompress .little 0 patMixedOut (List.replicate (patMixedIn.length + 5) 0xaa)) = some (none, patMixedIn.length, patMixedIn) ∧
    view (sw842Decompress .big 3 patMixedOut (List.replicate (patMixedIn.length + 5) 0xaa)) = some (none, patMixedIn.length, patMixedIn) ∧
    view (optsw842Decompress .little 0 0 patMixedOut (List.replicate (patMixedIn.length + 5) 0xaa)) = some (none, patMixedIn.length, patMixedIn) ∧
    view (optsw842Decompress .big 0 0 patMixedOut (List.replicate (patMixedIn.length + 5) 0xaa)) = some (none, patMixedIn.length, patMixedIn) ∧
    view (optsw842Decompress .little 3 3 patMixedOut (List.replicate (patMixedIn.length + 5) 0xaa)) = some (none, patMixedIn.length, patMixedIn) ∧
    view (oclCore .little (some patMixedOut) 0 patMixedOut.length (List.replicate (patMixedIn.length + 8) 0xaa) (patMixedIn.length + 5)) =
      some (none, patMixedIn.length, patMixedIn) := by
  and_intros <;> decide +kernel

/-- test_compress_pattern, test_compress_pattern_unaligned; both compressors even produce the recorded stream -/
example : view (sw842Compress .little 0 junk0 patMixedIn (List.replicate (2 * patMixedIn.length + 8) 0xaa)) =
      some (none, patMixedOut.length, patMixedOut) ∧
    view (sw842Compress .big 3 junk1 patMixedIn (List.replicate (2 * patMixedIn.length + 8) 0xaa)) = some (none, patMixedOut.length, patMixedOut) ∧
    view (optsw842Compress .little 0 0 ojunk0 junk0 patMixedIn (List.replicate (2 * patMixedIn.length + 8) 0xaa)) =
      some (none, patMixedOut.length, patMixedOut) ∧
    view (optsw842Compress .little 3 3 ojunk0 junk0 patMixedIn (List.replicate (2 * patMixedIn.length + 8) 0xaa)) =
      some (none, patMixedOut.length, patMixedOut) := by
  and_intros <;> decide +kernel

/-- test_compress_pattern_barelysmall, test_decompress_pattern_barelysmall, test_decompress_pattern_halfsmall -/
example : view (sw842Compress .little 0 junk0 patMixedIn (List.replicate (patMixedOut.length - 1) 0xaa)) = some (some .ENOSPC, 0, []) ∧
    view (optsw842Compress .little 0 0 ojunk0 junk0 patMixedIn (List.replicate (patMixedOut.length - 1) 0xaa)) = some (some .ENOSPC, 0, []) ∧
    view (sw842Decompress .little 0 patMixedOut (List.replicate (patMixedIn.length - 1) 0xaa)) = some (some .ENOSPC, 0, []) ∧
    view (optsw842Decompress .little 0 0 patMixedOut (List.replicate (patMixedIn.length - 1) 0xaa)) = some (some .ENOSPC, 0, []) ∧
    view (sw842Decompress .little 0 patMixedOut (List.replicate (patMixedIn.length / 2) 0xaa)) = some (some .ENOSPC, 0, []) ∧
    view (optsw842Decompress .little 0 0 patMixedOut (List.replicate (patMixedIn.length / 2) 0xaa)) = some (some .ENOSPC, 0, []) := by
  and_intros <;> decide +kernel

/-- test_decompress_invalid_simple -/
example : view (sw842Decompress .little 0 invalidSimple (List.replicate 64 0xaa)) = some (some .EINVAL, 0, []) ∧
    view (optsw842Decompress .little 0 0 invalidSimple (List.replicate 64 0xaa)) = some (some .EINVAL, 0, []) ∧
    view (oclCore .little (some invalidSimple) 0 32 (List.replicate 64 0xaa) 64) = some (some .EINVAL, 0, []) := by
  and_intros <;> decide +kernel

/-- test_decompress_crcerror -/
example : view (sw842Decompress .little 0 crcError (List.replicate 48 0xaa)) = some (some .EINVAL, 0, []) ∧
    view (optsw842Decompress .little 0 0 crcError (List.replicate 48 0xaa)) = some (some .EINVAL, 0, []) := by
  and_intros <;> decide +kernel

/-- ... which the OpenCL decoder is known not to notice -/
example : (view (oclCore .little (some crcError) 0 24 (List.replicate 48 0xaa) 48)).map Prod.fst = some none := by
  and_intros <;> decide +kernel

/-- test_compress_notmultipleof8: "succeeded or failed with EINVAL" -/
example : (view (sw842Compress .little 0 junk0 [0x11, 0x11, 0x11, 0x12, 0x12] (List.replicate 128 0xaa))).map Prod.fst =
      some none ∧
    (view (optsw842Compress .little 0 0 ojunk0 junk0 [0x11, 0x11, 0x11, 0x12, 0x12] (List.replicate 128 0xaa))).map Prod.fst =
      some (some .EINVAL) := by
  and_intros <;> decide +kernel

/-- test_decompress_boundscheck, "Short data test" -/
example : (match sw842Compress .little 0 junk0 [0, 1, 2, 3, 4, 5, 6, 7, 8, 9, 10, 11] (List.replicate 48 0xaa) with
    | .ret none n b => view (sw842Decompress .little 0 (b.take n) (List.replicate 8 0xff))
    | _ => none) = some (some .ENOSPC, 0, []) := by
  and_intros <;> decide +kernel

/-! The larger tests are evaluated by the interpreter (no theorem results from them). -/

-- the CUDA decoder on all patterns (it reads a word beyond a stream that ends with a full one)
#guard [(patEmptyIn, patEmptyOut), (patZerosIn, patZerosOut), (patRandomIn, patRandomOut), (patLimitIn, patLimitOut),
  (patMixedIn, patMixedOut), (patTextIn, patTextOut)].all fun x =>
    cudaThread (x.2 ++ List.replicate 8 0) (x.1.map (· + 1) ++ [0x55]) == some (x.1 ++ [0x55])

-- the 800 bytes of text: `sw842_compress` produces exactly the recorded stream, `optsw842_compress` a longer one
#guard view (sw842Decompress .little 0 patTextOut (List.replicate (patTextIn.length + 5) 0xaa)) == some (none, 800, patTextIn)
#guard view (optsw842Decompress .little 0 0 patTextOut (List.replicate (patTextIn.length + 5) 0xaa)) == some (none, 800, patTextIn)
#guard view (sw842Compress .little 0 junk0 patTextIn (List.replicate 1608 0xaa)) == some (none, 640, patTextOut)
#guard view (oclCore .little (some patTextOut) 0 640 (List.replicate 808 0xaa) 805) == some (none, 800, patTextIn)
#guard (match optsw842Compress .little 0 0 ojunk0 junk0 patTextIn (List.replicate 1608 0xaa) with
  | .ret none n b => view (sw842Decompress .little 0 (b.take n) (List.replicate 805 0xaa)) == some (none, 800, patTextIn)
  | _ => false)

/-- `xorshift_next`, test/test_compress_diffuse.c -/
def xorshift (x : BitVec 32) : BitVec 32 :=
  let x := x ^^^ (x <<< 13)
  let x := x ^^^ (x >>> 17)
  x ^^^ (x <<< 5)

def xorshifts : Nat → BitVec 32 → List Byte
  | 0, _ => []
  | n + 1, x => (xorshift x).setWidth 8 :: xorshifts n (xorshift x)

def diffuse (l : List Byte) : List Byte :=
  let a := l.toArray
  (List.range 2048).map fun i => BitVec.ofNat 8 (((a.getD ((i + 2047) % 2048) 0).toNat + (a.getD ((i + 1) % 2048) 0).toNat) / 3)

def diffuseRun : Nat → List Byte → Bool
  | 0, _ => true
  | n + 1, l =>
    let l := diffuse l
    (match sw842Compress .little 0 junk0 l (List.replicate 4096 0xaa) with
      | .ret none n b => view (sw842Decompress .little 0 (b.take n) (List.replicate 2048 0)) == some (none, 2048, l) &&
          view (optsw842Decompress .little 0 0 (b.take n) (List.replicate 2048 0)) == some (none, 2048, l)
      | _ => false) &&
    (match optsw842Compress .little 0 0 ojunk0 junk0 l (List.replicate 4096 0xaa) with
      | .ret none n b => view (sw842Decompress .little 0 (b.take n) (List.replicate 2048 0)) == some (none, 2048, l) &&
          view (optsw842Decompress .little 0 0 (b.take n) (List.replicate 2048 0)) == some (none, 2048, l)
      | _ => false) && diffuseRun n l

-- test_compress_diffuse
#guard diffuseRun 13 (xorshifts 2048 1234)

-- test_decompress_boundscheck, "Index reference test"
#guard (match sw842Compress .little 0 junk0 ((List.range 256).map fun i => BitVec.ofNat 8 (i % 16)) (List.replicate 1024 0xaa) with
  | .ret none n b => view (sw842Decompress .little 0 (b.take n) (List.replicate 64 0xff)) == some (some .ENOSPC, 0, []) &&
      view (optsw842Decompress .little 0 0 (b.take n) (List.replicate 64 0xff)) == some (some .ENOSPC, 0, [])
  | _ => false)

end Lib842.Validation
